import Verif.Mir.BlockLayout
import Verif.Mir.SimplifyCfgProps
import Mathlib.Data.List.Perm.Basic

/-!
# Tail duplication, block placement and identical code folding cannot be seen
-/

namespace Cmmc.Mir

/-- A block ends with its only terminator: control does not pass it, or it is a conditional branch
    (`MIRBasicBlock::verify`, MIR.cpp:26-37). -/
def Ends (is : List FInst) : Prop :=
  ∃ js x, is = js ++ [x] ∧ (∀ y ∈ js, y.br = .none) ∧ (x.noFall = true ∨ ∃ t, x.br = .cond t)

/-- Every block ends with a terminator, and control does not run off the end of the function. -/
structure Terminated (f : Code) : Prop where
  ends : ∀ B ∈ f, Ends B.2
  last : ∀ B ∈ f.getLast?, falls B.2 = false

theorem Ends.ne {is : List FInst} (h : Ends is) : is ≠ [] := by
  obtain ⟨js, x, rfl, -⟩ := h
  simp

theorem falls_append (a b : List FInst) : falls (a ++ b) = (falls a && falls b) := by simp [falls, List.all_append]

theorem falls_concat_noFall {js : List FInst} {y : FInst} (h : y.noFall = true) : falls (js ++ [y]) = false := by
  rw [falls_append]
  simp [falls, h]

/-- A block control runs through ends with a conditional branch. -/
theorem Ends.cond {is : List FInst} (h : Ends is) (hf : falls is = true) : ∃ js x t, is = js ++ [x] ∧ x.br = .cond t := by
  obtain ⟨js, x, rfl, -, hc | ⟨t, ht⟩⟩ := h
  · rw [falls_concat_noFall hc] at hf
    cases hf
  · exact ⟨js, x, t, rfl, ht⟩

/-- Control runs through a block that ends with a conditional branch. -/
theorem Ends.falls {is : List FInst} {x : FInst} {t : Nat} (h : Ends (is ++ [x])) (hx : x.br = .cond t) :
    falls (is ++ [x]) = true := by
  obtain ⟨js, y, e, hj, -⟩ := h
  obtain ⟨rfl, e2⟩ := List.append_inj' e rfl
  rw [falls_append, Bool.and_eq_true]
  constructor
  · simp only [Mir.falls, List.all_eq_true, Bool.not_eq_true']
    intro z hz
    simp [FInst.noFall, hj z hz]
  · simp [Mir.falls, FInst.noFall, hx]

/-! ## The block after a block -/

theorem Code.after_cons (Y : Nat × List FInst) (X : Code) (k : Nat) :
    Code.after (Y :: X) k = if Y.1 = k then X.head?.map Prod.fst else Code.after X k := by
  rcases Y with ⟨l, is⟩
  cases X with
  | nil => simp [Code.after]
  | cons Z X => simp [Code.after]

theorem Code.after_some {f : Code} {l n : Nat} (h : f.after l = some n) :
    ∃ A is js B, f = A ++ (l, is) :: (n, js) :: B := by
  induction f with
  | nil => simp [Code.after] at h
  | cons Y X ih =>
    rw [Code.after_cons] at h
    split at h
    · rename_i hl
      cases X with
      | nil => simp at h
      | cons Z X =>
        simp only [List.head?_cons, Option.map_some, Option.some.injEq] at h
        exact ⟨[], Y.2, Z.2, X, by rw [← hl, ← h]; rfl⟩
    · obtain ⟨A, is, js, B, rfl⟩ := ih h
      exact ⟨Y :: A, is, js, B, rfl⟩

theorem Code.after_none {f : Code} {l : Nat} {is : List FInst} (hb : f.body l = some is) (h : f.after l = none) :
    ∃ A, f = A ++ [(l, is)] := by
  induction f with
  | nil => simp [Code.body] at hb
  | cons Y X ih =>
    rw [Code.after_cons] at h
    split at h
    · rename_i hl
      cases X with
      | nil =>
        simp [Code.body, hl] at hb
        exact ⟨[], by rw [← hl, ← hb]; rfl⟩
      | cons Z X => simp at h
    · rename_i hl
      have hb' : Code.body X l = some is := by simpa [Code.body, hl] using hb
      obtain ⟨A, rfl⟩ := ih hb' h
      exact ⟨Y :: A, rfl⟩

theorem nodup_split_unique {A A' B B' : Code} {l : Nat} {is is' : List FInst}
    (h : (Code.labels (A ++ (l, is) :: B)).Nodup) (e : A ++ (l, is) :: B = A' ++ (l, is') :: B') :
    A = A' ∧ is = is' ∧ B = B' := by
  induction A generalizing A' with
  | nil =>
    cases A' with
    | nil => simp at e; exact ⟨rfl, e⟩
    | cons Y A' =>
      exfalso
      simp only [List.nil_append, List.cons_append, List.cons.injEq] at e
      simp only [Code.labels, List.nil_append, List.map_cons, List.nodup_cons] at h
      apply h.1
      rw [e.2]; simp
  | cons X A ih =>
    cases A' with
    | nil =>
      exfalso
      simp only [List.nil_append, List.cons_append, List.cons.injEq] at e
      simp only [Code.labels, List.cons_append, List.map_cons, List.nodup_cons] at h
      apply h.1
      rw [e.1]; simp
    | cons Y A' =>
      simp only [List.cons_append, List.cons.injEq] at e
      simp only [Code.labels, List.cons_append, List.map_cons, List.nodup_cons] at h
      obtain ⟨a, b, c⟩ := ih (by exact h.2) e.2
      exact ⟨by rw [e.1, a], b, c⟩

/-- Where a block that control runs through leads. -/
theorem Terminated.next {f : Code} (ht : Terminated f) (hnd : f.labels.Nodup) {l : Nat} {is : List FInst} (hb : f.body l = some is)
    (hf : falls is = true) : ∃ A n js B, f = A ++ (l, is) :: (n, js) :: B ∧ f.after l = some n ∧
      f.at l = some (is ++ Code.flat ((n, js) :: B)) ∧ f.at n = some (Code.flat ((n, js) :: B)) := by
  cases ha : f.after l with
  | none =>
    obtain ⟨A, rfl⟩ := Code.after_none hb ha
    have := ht.last (l, is) (by simp)
    rw [this] at hf; cases hf
  | some n =>
    obtain ⟨A, is', js, B, e⟩ := Code.after_some ha
    obtain ⟨A', B', e', hA'⟩ := Code.body_split hb
    have hnd' : (Code.labels (A ++ (l, is') :: (n, js) :: B)).Nodup := by rw [← e]; exact hnd
    obtain ⟨rfl, rfl, rfl⟩ := nodup_split_unique hnd' (e.symm.trans e')
    refine ⟨A, n, js, B, e, rfl, ?_, ?_⟩
    · rw [e]; exact Code.at_split hnd'
    · have e2 : f = (A ++ [(l, is')]) ++ (n, js) :: B := by rw [e]; simp
      rw [e2] at hnd ⊢
      rw [Code.at_split hnd, Code.flat_cons]

/-- The recorded successors tell where a conditional branch falls through to. -/
theorem otherSucc_endSuccs {js : List FInst} {x : FInst} {t n : Nat} (hx : x.br = .cond t) :
    otherSucc t (endSuccs (some n) (js ++ [x])) = some n := by
  simp only [endSuccs, List.getLast?_concat, hx]
  by_cases h : n = t
  · subst h; simp [otherSucc]
  · rw [if_neg h]; simp [otherSucc]

section
variable {Val Mem : Type} {T : Target} {I : Interp Val Mem} {vis : Nat → Bool} {C : Inst → Prop} {f g : Code} {J : BrOps}

/-- The code `b` is the code from label `n` on, or a jump there. -/
def Leads (T : Target) (I : Interp Val Mem) (vis : Nat → Bool) (g : Code) (n : Nat) (b : List FInst) : Prop :=
  g.at n = some b ∨ ∃ x r, b = x :: r ∧ x.br = .goto n ∧ BrPure T I vis x.inst

/-- Block `l`, with instructions `is` in `f`, is found in `g` too, directly or by one jump, and control that runs
    through it leads to the same block. -/
def Placed (T : Target) (I : Interp Val Mem) (vis : Nat → Bool) (f g : Code) (l : Nat) (is : List FInst) : Prop :=
  ∃ a b d', f.at l = some (is ++ a) ∧ g.at l = some d' ∧
    (d' = is ++ b ∨ ∃ x r t, d' = x :: r ∧ x.br = .goto t ∧ BrPure T I vis x.inst ∧ g.at t = some (is ++ b)) ∧
    (falls is = true → ∃ n ∈ f.labels, f.at n = some a ∧ Leads T I vis g n b)

/-- Two functions with the same blocks placed differently. -/
theorem place_same (hf : CodeOk T I vis C f) (hne : f ≠ []) (he : ∀ B ∈ f, B.2 ≠ [])
    (hp : ∀ l is, f.body l = some is → Placed T I vis f g l is) (h0 : ∀ B ∈ f.head?, g.at B.1 = some g.flat) :
    FSame T I vis f g := by
  let S : List FInst → List FInst → Prop := fun c c' => ∃ p a b, p ≠ [] ∧ (∀ x ∈ p, x ∈ f.flat) ∧ c = p ++ a ∧ c' = p ++ b ∧
    (falls p = true → ∃ n ∈ f.labels, f.at n = some a ∧ Leads T I vis g n b)
  have hat : ∀ l ∈ f.labels, AtRel f g id (Clo T I vis f g S) l := by
    intro l hl
    obtain ⟨is, his⟩ := Code.body_isSome hl
    obtain ⟨a, b, d', h1, h2, h3, h4⟩ := hp l is his
    have hisne : is ≠ [] := by
      obtain ⟨A, B, rfl, -⟩ := Code.body_split his
      exact he (l, is) (by simp)
    have hS : S (is ++ a) (is ++ b) := ⟨is, a, b, hisne, Code.body_sub his, rfl, rfl, h4⟩
    refine ⟨_, d', h1, h2, ?_⟩
    rcases h3 with rfl | ⟨x, r, t, rfl, hx, hpx, hgt⟩
    · exact .base hS
    · exact .right hx hpx hgt (.base hS)
  refine sync_same (S := S) ?_ ?_
  · rintro c c' ⟨p, a, b, hpn, hsub, rfl, rfl, hfl⟩
    cases p with
    | nil => exact absurd rfl hpn
    | cons x r =>
      refine .inr ⟨x, r ++ a, x, r ++ b, rfl, rfl, match_id ?_ ?_⟩
      · intro t ht
        exact hat t ((hf.good x (hsub x (by simp))).tgt t ht)
      · intro hx
        have hfl' : falls r = true → ∃ n ∈ f.labels, f.at n = some a ∧ Leads T I vis g n b := by
          intro h
          exact hfl (by simp only [falls, List.all_cons, hx] at h ⊢; simpa using h)
        cases r with
        | cons y r => exact .base ⟨y :: r, a, b, by simp, fun z hz => hsub z (by simp at hz ⊢; exact .inr hz), rfl, rfl, hfl'⟩
        | nil =>
          obtain ⟨n, hn, ha, hb⟩ := hfl' rfl
          obtain ⟨d, d', e1, e2, e3⟩ := hat n hn
          rw [ha] at e1
          cases e1
          simp only [id] at e2
          rcases hb with hb | ⟨z, w, rfl, hz, hpz⟩
          · rw [hb] at e2; cases e2; exact e3
          · exact .right hz hpz e2 e3
  · cases f with
    | nil => exact absurd rfl hne
    | cons B r =>
      obtain ⟨d, d', e1, e2, e3⟩ := hat B.1 (by simp [Code.labels])
      simp only [id] at e2
      rw [h0 B (by simp)] at e2
      simp only [Code.at, if_pos] at e1
      cases e1; cases e2
      rw [Code.flat_cons]; exact e3

/-! ## `ensureNext` -/

theorem ensureNext_cases (J : BrOps) (i n : Nat) (rest : Code) :
    (ensureNext J i n rest = [] ∧ ∃ js B, rest = (n, js) :: B) ∨
    ensureNext J i n rest = [(i, [⟨J.goto n, .goto n⟩])] := by
  unfold ensureNext
  split
  · rename_i h
    left
    cases rest with
    | nil => simp at h
    | cons Z r =>
      simp only [List.head?_cons, Option.map_some, Option.some.injEq] at h
      exact ⟨rfl, Z.2, r, by rw [← h]⟩
  · exact .inr rfl

theorem Good.emit {L : List Nat} {n : Nat} (hJ : J.Ok T I vis C) (hn : n ∈ L) : Good T I vis C L ⟨J.goto n, .goto n⟩ := by
  refine ⟨?_, fun t _ => hJ.goto n, ?_⟩
  · intro t ht
    simp only [FInst.targets, List.mem_singleton] at ht
    subst ht; exact hn
  · intro t ht; cases ht

theorem Code.fresh_gt {f : Code} {t : Nat} (h : t ∈ f.labels) : t < f.fresh := by
  have : ∀ (L : List Nat), t ∈ L → t ≤ L.foldr max 0 := by
    intro L
    induction L with
    | nil => intro h; cases h
    | cons a L ih =>
      intro h
      simp only [List.foldr_cons]
      rcases List.mem_cons.mp h with rfl | h
      · exact Nat.le_max_left _ _
      · exact Nat.le_trans (ih h) (Nat.le_max_right _ _)
  exact Nat.lt_succ_of_le (this _ h)

/-! ## Placing the blocks -/

/-- `layoutFix` adds a block, if any, behind the first one. -/
theorem layoutFix_cons (J : BrOps) (f : Code) (i l : Nat) (is : List FInst) (rest : Code) :
    ∃ Cn j, layoutFix J f i ((l, is) :: rest) = (l, is) :: (Cn ++ layoutFix J f j rest) ∧ i ≤ j ∧
      ((Cn = [] ∧ ∀ x t n, is.getLast? = some x → x.br = .cond t → otherSucc t (f.succs l) = some n →
          ∃ js B, rest = (n, js) :: B) ∨
        ∃ x t n, is.getLast? = some x ∧ x.br = .cond t ∧ otherSucc t (f.succs l) = some n ∧ j = i + 1 ∧
          Cn = [(i, [⟨J.goto n, .goto n⟩])]) := by
  simp only [layoutFix]
  split
  · rename_i h
    exact ⟨[], i, rfl, Nat.le_refl _, .inl ⟨rfl, fun x t n h1 => by rw [h] at h1; cases h1⟩⟩
  · rename_i x hx
    split
    · rename_i t ht
      split
      · rename_i ho
        refine ⟨[], i, rfl, Nat.le_refl _, .inl ⟨rfl, fun y u n h1 h2 h3 => ?_⟩⟩
        rw [hx] at h1; cases h1
        rw [ht] at h2; cases h2
        rw [ho] at h3; cases h3
      · rename_i n ho
        refine ⟨ensureNext J i n rest, i + 1, rfl, Nat.le_succ _, ?_⟩
        rcases ensureNext_cases J i n rest with ⟨h1, h2⟩ | h1
        · refine .inl ⟨h1, fun y u n' e1 e2 e3 => ?_⟩
          rw [hx] at e1; cases e1
          rw [ht] at e2; cases e2
          rw [ho] at e3; cases e3
          exact h2
        · exact .inr ⟨x, t, n, hx, ht, ho, rfl, h1⟩
    · rename_i hno
      refine ⟨[], i, rfl, Nat.le_refl _, .inl ⟨rfl, fun y u n h1 h2 h3 => ?_⟩⟩
      rw [hx] at h1; cases h1
      exact absurd h2 (hno u)

theorem layoutFix_spec (J : BrOps) (f : Code) : ∀ (s : Code) (i : Nat), s.labels.Nodup → (∀ t ∈ s.labels, t < i) →
    (∀ t, t ∈ (layoutFix J f i s).labels → t ∈ s.labels ∨ i ≤ t) ∧ (∀ t ∈ s.labels, t ∈ (layoutFix J f i s).labels) ∧
    (layoutFix J f i s).labels.Nodup ∧
    (∀ x ∈ (layoutFix J f i s).flat, x ∈ s.flat ∨ ∃ B ∈ s, ∃ y t n, B.2.getLast? = some y ∧ y.br = .cond t ∧
      otherSucc t (f.succs B.1) = some n ∧ x = ⟨J.goto n, .goto n⟩) ∧
    ∀ B ∈ s, ∃ b, (layoutFix J f i s).at B.1 = some (B.2 ++ b) ∧ ∀ y t n, B.2.getLast? = some y → y.br = .cond t →
      otherSucc t (f.succs B.1) = some n → (layoutFix J f i s).at n = some b ∨ ∃ r, b = ⟨J.goto n, .goto n⟩ :: r := by
  intro s
  induction s with
  | nil =>
    intro i _ _
    refine ⟨by simp [layoutFix, Code.labels], by simp [Code.labels], by simp [layoutFix, Code.labels], by simp [layoutFix, Code.flat], by simp⟩
  | cons B r ih =>
    intro i hnd hlt
    rcases B with ⟨l, is⟩
    have hnd' : l ∉ Code.labels r ∧ (Code.labels r).Nodup := by
      simpa [Code.labels] using hnd
    have hl : l < i := hlt l (by simp [Code.labels])
    have hltr : ∀ t ∈ Code.labels r, t < i := fun t ht => hlt t (by simp [Code.labels] at ht ⊢; exact .inr ht)
    obtain ⟨Cn, j, e, hij, hC⟩ := layoutFix_cons J f i l is r
    obtain ⟨i1, i2, i3, i4, i5⟩ := ih j hnd'.2 (fun t ht => Nat.lt_of_lt_of_le (hltr t ht) hij)
    rw [e]
    have hCl : ∀ t ∈ Code.labels Cn, t = i ∧ j = i + 1 := by
      intro t ht
      rcases hC with ⟨rfl, -⟩ | ⟨x, t', n, -, -, -, hj, rfl⟩
      · simp [Code.labels] at ht
      · simp [Code.labels] at ht; exact ⟨ht, hj⟩
    have hCnd : (Code.labels Cn).Nodup := by
      rcases hC with ⟨rfl, -⟩ | ⟨x, t', n, -, -, -, hj, rfl⟩ <;> simp [Code.labels]
    have hlab : ∀ t, t ∈ Code.labels ((l, is) :: (Cn ++ layoutFix J f j r)) ↔
        t = l ∨ t ∈ Code.labels Cn ∨ t ∈ (layoutFix J f j r).labels := by
      intro t
      simp only [Code.labels, List.map_cons, List.map_append, List.mem_cons, List.mem_append]
    have hnotin : ∀ t ∈ Code.labels Cn, t ∉ (layoutFix J f j r).labels := by
      intro t ht h
      obtain ⟨rfl, hj⟩ := hCl t ht
      rcases i1 t h with h | h
      · exact absurd (hltr t h) (Nat.lt_irrefl _)
      · omega
    -- the code at a label of the rest
    have hat : ∀ t ∈ Code.labels r, Code.at ((l, is) :: (Cn ++ layoutFix J f j r)) t = (layoutFix J f j r).at t := by
      intro t ht
      simp only [Code.at]
      rw [if_neg (by rintro rfl; exact hnd'.1 ht), Code.at_append]
      intro h
      obtain ⟨rfl, -⟩ := hCl t h
      exact absurd (hltr t ht) (Nat.lt_irrefl _)
    refine ⟨?_, ?_, ?_, ?_, ?_⟩
    · intro t ht
      rcases (hlab t).mp ht with rfl | h | h
      · left; simp [Code.labels]
      · right; rw [(hCl t h).1]
      · rcases i1 t h with h | h
        · left; simp [Code.labels] at h ⊢; exact .inr h
        · right; omega
    · intro t ht
      rw [hlab]
      simp only [Code.labels, List.map_cons, List.mem_cons] at ht
      rcases ht with rfl | ht
      · exact .inl rfl
      · exact .inr (.inr (i2 t ht))
    · have : Code.labels ((l, is) :: (Cn ++ layoutFix J f j r)) = l :: (Code.labels Cn ++ (layoutFix J f j r).labels) := by
        simp [Code.labels]
      rw [this, List.nodup_cons, List.nodup_append]
      refine ⟨?_, hCnd, i3, ?_⟩
      · rw [List.mem_append]
        rintro (h | h)
        · obtain ⟨rfl, -⟩ := hCl l h
          exact absurd hl (Nat.lt_irrefl _)
        · rcases i1 l h with h | h
          · exact hnd'.1 h
          · omega
      · rintro a ha b hb rfl
        exact hnotin a ha hb
    · intro x hx
      rw [Code.flat_cons, Code.flat_append] at hx
      rw [Code.flat_cons]
      rcases List.mem_append.mp hx with hx | hx
      · left; simp at hx; simp [hx]
      · rcases List.mem_append.mp hx with hx | hx
        · right
          rcases hC with ⟨rfl, -⟩ | ⟨y, t', n, h1, h2, h3, hj, rfl⟩
          · simp [Code.flat] at hx
          · simp [Code.flat] at hx
            exact ⟨(l, is), by simp, y, t', n, h1, h2, h3, hx⟩
        · rcases i4 x hx with h | ⟨B, hB, h⟩
          · left; simp [h]
          · right; exact ⟨B, List.mem_cons_of_mem _ hB, h⟩
    · intro B hB
      rcases List.mem_cons.mp hB with rfl | hB
      · refine ⟨Code.flat Cn ++ (layoutFix J f j r).flat, by simp [Code.at, Code.flat_append], ?_⟩
        intro y t n h1 h2 h3
        rcases hC with ⟨rfl, h⟩ | ⟨y', t', n', g1, g2, g3, hj, rfl⟩
        · left
          obtain ⟨js, B', rfl⟩ := h y t n h1 h2 h3
          rw [hat n (by simp [Code.labels])]
          obtain ⟨Cn', j', e', -, -⟩ := layoutFix_cons J f j n js B'
          rw [e']
          simp [Code.at, Code.flat]
        · right
          simp only at h1 h3
          rw [h1] at g1; cases g1
          rw [h2] at g2; cases g2
          rw [h3] at g3; cases g3
          exact ⟨(layoutFix J f j r).flat, by simp [Code.flat]⟩
      · obtain ⟨b, h1, h2⟩ := i5 B hB
        refine ⟨b, ?_, ?_⟩
        · rw [hat B.1 (by simp only [Code.labels, List.mem_map]; exact ⟨B, hB, rfl⟩)]; exact h1
        · intro y t n g1 g2 g3
          rcases h2 y t n g1 g2 g3 with h | h
          · left
            have hn := Code.at_mem h
            simp only [Code.at]
            have hnl : l ≠ n := by
              rintro rfl
              rcases i1 l hn with h | h
              · exact hnd'.1 h
              · omega
            rw [if_neg hnl, Code.at_append]
            · exact h
            · intro hc; exact hnotin n hc hn
          · exact .inr h

theorem layoutFix_head (J : BrOps) (f s : Code) (i : Nat) : (layoutFix J f i s).head?.map Prod.fst = s.head?.map Prod.fst := by
  cases s with
  | nil => rfl
  | cons B r =>
    obtain ⟨Cn, j, e, -⟩ := layoutFix_cons J f i B.1 B.2 r
    rw [show B :: r = (B.1, B.2) :: r from rfl, e]
    rfl

theorem filterMap_range (f : Code) : ((List.range f.length).filterMap fun i => f[i]?) = f := by
  induction f using List.reverseRecOn with
  | nil => rfl
  | append_singleton f B ih =>
    rw [List.length_append, List.length_singleton, List.range_succ, List.filterMap_append]
    have : (List.range f.length).filterMap (fun i => (f ++ [B])[i]?) = (List.range f.length).filterMap fun i => f[i]? := by
      apply List.filterMap_congr
      intro i hi
      rw [List.getElem?_append_left (List.mem_range.mp hi)]
    rw [this, ih]
    simp

theorem Code.at_head {g : Code} {l : Nat} (h : g.head?.map Prod.fst = some l) : g.at l = some g.flat := by
  cases g with
  | nil => simp at h
  | cons B r =>
    simp only [List.head?_cons, Option.map_some, Option.some.injEq] at h
    simp only [Code.at, h, if_pos, Code.flat_cons]

theorem succs_mem (hf : f.Wf) {l n : Nat} (h : n ∈ f.succs l) : n ∈ f.labels := by
  unfold Code.succs at h
  cases hb : f.body l with
  | none => rw [hb] at h; simp at h
  | some is =>
    rw [hb] at h
    simp only [endSuccs] at h
    split at h
    · simp at h
    · rename_i x hx
      have hxf : x ∈ f.flat := by
        obtain ⟨js, rfl⟩ := List.getLast?_eq_some_iff.mp hx
        exact Code.body_sub hb x (by simp)
      have ht := hf.tgt x hxf
      split at h
      · rename_i t e
        exact ht n (by simpa [FInst.targets, e] using h)
      · rename_i t e
        split at h
        · rename_i m hm
          have hmf : m ∈ f.labels := Code.after_mem hm
          split at h
          · exact ht n (by simpa [FInst.targets, e] using h)
          · simp only [List.mem_cons, List.not_mem_nil, or_false] at h
            rcases h with rfl | rfl
            · exact ht n (by simp [FInst.targets, e])
            · exact hmf
        · exact ht n (by simpa [FInst.targets, e] using h)
      · rename_i ts e
        exact ht n (by simpa [FInst.targets, e] using h)
      · simp at h

theorem otherSucc_mem {t n : Nat} {L : List Nat} (h : otherSucc t L = some n) : n ∈ L := by
  unfold otherSucc at h
  split at h
  · cases h; simp
  · split at h <;> cases h <;> simp
  · cases h

theorem Terminated.other (ht : Terminated f) (hnd : f.labels.Nodup) {l : Nat} {is : List FInst} (hb : f.body l = some is)
    (hf : falls is = true) : ∃ x t n a, is.getLast? = some x ∧ x.br = .cond t ∧ otherSucc t (f.succs l) = some n ∧
      f.at l = some (is ++ a) ∧ f.at n = some a := by
  obtain ⟨A, B, e, -⟩ := Code.body_split hb
  obtain ⟨js, x, t, rfl, hx⟩ := (ht.ends (l, is) (by rw [e]; simp)).cond hf
  obtain ⟨A', n, ks, B', -, ha, h1, h2⟩ := ht.next hnd hb hf
  refine ⟨x, t, n, _, by simp, hx, ?_, h1, h2⟩
  simp only [Code.succs, hb, ha]
  exact otherSucc_endSuccs hx

theorem CodeOk.body_mem (hf : CodeOk T I vis C f) {B : Nat × List FInst} (hB : B ∈ f) : f.body B.1 = some B.2 := by
  obtain ⟨A, D, rfl⟩ := List.append_of_mem hB
  refine Code.body_of_split (is := B.2) ?_
  intro h
  have := hf.nodup
  simp only [Code.labels, List.map_append, List.map_cons] at this h
  exact (List.nodup_append.mp this).2.2 B.1 h B.1 (by simp) rfl

/-- Placing the blocks of a function in another order, the entry first. -/
theorem layout_sound (hJ : J.Ok T I vis C) (hf : CodeOk T I vis C f) (ht : Terminated f) {s : Code} (hs : s.Perm f)
    (h0 : s.head?.map Prod.fst = f.head?.map Prod.fst) :
    FSame T I vis f (layoutFix J f f.fresh s) ∧ CodeOk T I vis C (layoutFix J f f.fresh s) := by
  have hlabp : s.labels.Perm f.labels := hs.map _
  have hnd : s.labels.Nodup := hlabp.nodup_iff.mpr hf.nodup
  obtain ⟨i1, i2, i3, i4, i5⟩ := layoutFix_spec J f s f.fresh hnd (fun t h => Code.fresh_gt (hlabp.mem_iff.mp h))
  constructor
  · by_cases hne : f = []
    · subst hne
      have : s = [] := hs.eq_nil
      subst this
      exact .refl
    · refine place_same hf hne (fun B hB => (ht.ends B hB).ne) ?_ ?_
      · intro l is hb
        obtain ⟨A, D, e, hA⟩ := Code.body_split hb
        have hm : (l, is) ∈ s := hs.mem_iff.mpr (by rw [e]; simp)
        obtain ⟨b, hb1, hb2⟩ := i5 (l, is) hm
        obtain ⟨a, ha⟩ := Code.body_at hb
        refine ⟨a, b, _, ha, hb1, .inl rfl, ?_⟩
        intro hfl
        obtain ⟨x, t, n, a', h1, h2, h3, h4, h5⟩ := ht.other hf.nodup hb hfl
        rw [ha] at h4
        simp only [Option.some.injEq, List.append_cancel_left_eq] at h4
        subst h4
        refine ⟨n, Code.at_mem h5, h5, ?_⟩
        rcases hb2 x t n h1 h2 h3 with h | ⟨r, rfl⟩
        · exact .inl h
        · exact .inr ⟨_, r, rfl, rfl, hJ.goto n⟩
      · intro B hB
        refine Code.at_head ?_
        rw [layoutFix_head, h0]
        simp only [Option.mem_def] at hB
        rw [hB]; rfl
  · refine ⟨i3, ?_⟩
    have hin : ∀ t ∈ f.labels, t ∈ (layoutFix J f f.fresh s).labels := fun t h => i2 t (hlabp.mem_iff.mpr h)
    intro x hx
    rcases i4 x hx with h | ⟨B, hB, y, t, n, h1, h2, h3, rfl⟩
    · have hxf : x ∈ f.flat := by
        simp only [Code.flat, List.mem_flatMap] at h ⊢
        obtain ⟨B, hB, hx⟩ := h
        exact ⟨B, hs.mem_iff.mp hB, hx⟩
      exact (hf.good x hxf).mono fun t ht => hin t ((hf.good x hxf).tgt t ht)
    · exact Good.emit hJ (hin n (succs_mem hf.wf (otherSucc_mem h3)))

theorem optimizeBlockLayout_sound (hJ : J.Ok T I vis C) {place : Code → List Nat} (hf : CodeOk T I vis C f) (ht : Terminated f)
    (hp : (place f).Perm (List.range f.length)) (h0 : (place f).head? = some 0) :
    FSame T I vis f (optimizeBlockLayout J place f) ∧ CodeOk T I vis C (optimizeBlockLayout J place f) := by
  unfold optimizeBlockLayout
  split
  · exact ⟨.refl, hf⟩
  · refine layout_sound hJ hf ht ?_ ?_
    · have := hp.filterMap (fun i => f[i]?)
      rwa [filterMap_range] at this
    · cases hpf : place f with
      | nil => rw [hpf] at h0; cases h0
      | cons i r =>
        rw [hpf] at h0
        simp only [List.head?_cons, Option.some.injEq] at h0
        subst h0
        cases f with
        | nil => rename_i h; simp at h
        | cons B f => simp

end

end Cmmc.Mir
