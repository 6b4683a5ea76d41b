import Verif.SSA.Verify
/-!
# Reasoning about runs of well-formed functions

A *point* `(b, k)` is the place in block `b` after its phis and the first `k` instructions of its body. `Avail F b k x`: instruction `x`
has certainly been executed there. `points`: what is preserved by entering blocks and executing instructions holds at all points.
-/
namespace Cmmc.SSA

/-- a function as the passes see it: accepted by the verifier, nothing jumps into phis of the entry, no phi operands from dead blocks -/
structure Proper {Op C : Type} (F : Func Op C) : Prop extends WellFormed F where
  nodup : F.order.Nodup
  listed : F.Listed
  total : ∀ b ∈ F.order, ∃ B, F.blk b = some B
  entryIn : F.entry ∈ F.order
  entryPhis : ∀ B, F.blk F.entry = some B → B.phis = []
  deadPhis : ∀ b B p x h, F.blk b = some B → Live F b → p ∈ B.phis → Opd.inst x ∈ p.ops → DefIn F x h → Live F h

/-- `x` has been executed when the run is at point `(b, k)` -/
def Avail {Op C : Type} (F : Func Op C) (b k x : Nat) : Prop :=
  ∃ d, DefIn F x d ∧ Domi F d b ∧ (d = b → ∃ B, F.blk b = some B ∧ (x ∈ B.phis.map Phi.id ∨ x ∈ (B.body.take k).map Inst.id))

section
variable {Op C : Type} {F : Func Op C}

theorem Proper.blk (P : Proper F) {b : Nat} (h : Live F b) : ∃ B, F.blk b = some B := live_blk P.closed P.total P.entryIn h

theorem Proper.home (P : Proper F) {i a b : Nat} (ha : DefIn F i a) (hb : DefIn F i b) : a = b := defIn_unique P.listed P.unique ha hb

theorem path_end {E : Nat → Nat → Prop} {a b : Nat} {p : List Nat} (h : Dom.Path E a b p) : b ∈ p := by
  induction h with
  | single _ => simp
  | cons _ _ ih => simp [ih]

/-- a dominator of a live block is live -/
theorem Domi.live {d b : Nat} (h : Domi F d b) (hb : Live F b) : Live F d := by
  obtain ⟨p, hp⟩ := hb
  obtain ⟨q, hq, _⟩ := Dom.path_prefix hp (h p hp)
  exact ⟨q, hq⟩

theorem Domi.trans {a b c : Nat} (h1 : Domi F a b) (h2 : Domi F b c) : Domi F a c := Dom.dominates_trans h1 h2

/-- every path contains an initial part that reaches `b` for the first time -/
theorem first_visit {E : Nat → Nat → Prop} {a b c : Nat} {p : List Nat} (h : Dom.Path E a c p) (hb : b ∈ p) :
    ∃ q, Dom.Path E a b q ∧ (∀ x ∈ q, x ∈ p) ∧ q.count b = 1 := by
  induction h with
  | single a => simp only [List.mem_singleton] at hb; subst hb; exact ⟨[b], .single b, fun x h => h, by simp⟩
  | @cons a d c p e hp ih =>
    by_cases hab : b = a
    · subst hab; exact ⟨[b], .single b, by simp, by simp⟩
    · have hb := (List.mem_cons.mp hb).resolve_left hab
      obtain ⟨q, hq, hs, hc⟩ := ih hb
      refine ⟨a :: q, .cons e hq, ?_, ?_⟩
      · intro x hx
        rcases List.mem_cons.mp hx with rfl | hx
        · simp
        · simp [hs x hx]
      · rw [List.count_cons_of_ne (Ne.symm hab)]; exact hc

/-- two live blocks that dominate each other are equal -/
theorem Domi.antisymm {a b : Nat} (h1 : Domi F a b) (h2 : Domi F b a) (hb : Live F b) : a = b := by
  by_contra hne
  -- take a shortest path to one of the two
  have key : ∀ (n : Nat) {p : List Nat}, p.length = n → ¬ Dom.Path (Edge F) F.entry b p ∧ ¬ Dom.Path (Edge F) F.entry a p := by
    intro n
    induction n using Nat.strongRecOn with
    | _ n ih =>
      intro p hn
      have sub : ∀ {x y}, x ≠ y → Dom.Path (Edge F) F.entry y p → x ∈ p → ∃ q, q.length < n ∧ Dom.Path (Edge F) F.entry x q := by
        intro x y hxy hp hx
        have : ∀ {s y p}, Dom.Path (Edge F) s y p → x ∈ p → x ≠ y → ∃ q, q.length < p.length ∧ Dom.Path (Edge F) s x q := by
          intro s y p hp
          induction hp with
          | single a => intro h1 h2; simp only [List.mem_singleton] at h1; exact absurd h1 h2
          | @cons a d c p e hp ih =>
            intro h1 h2
            by_cases hxa : x = a
            · subst hxa
              refine ⟨[x], ?_, .single x⟩
              cases hp <;> simp
            · obtain ⟨q, hq, hp'⟩ := ih ((List.mem_cons.mp h1).resolve_left hxa) h2
              exact ⟨a :: q, by simpa using hq, .cons e hp'⟩
        obtain ⟨q, h1, h2⟩ := this hp hx hxy
        exact ⟨q, hn ▸ h1, h2⟩
      refine ⟨fun hp => ?_, fun hp => ?_⟩
      · obtain ⟨q, hq, hp'⟩ := sub hne hp (h1 p hp)
        exact (ih _ hq rfl).2 hp'
      · obtain ⟨q, hq, hp'⟩ := sub (Ne.symm hne) hp (h2 p hp)
        exact (ih _ hq rfl).1 hp'
  obtain ⟨p, hp⟩ := hb
  exact (key _ rfl).1 hp

theorem avail_mono {b k l x : Nat} (h : Avail F b k x) (hkl : k ≤ l) : Avail F b l x := by
  obtain ⟨d, h1, h2, h3⟩ := h
  refine ⟨d, h1, h2, fun e => ?_⟩
  obtain ⟨B, hB, h4⟩ := h3 e
  refine ⟨B, hB, h4.imp_right (fun h5 => ?_)⟩
  have : (B.body.take k).Sublist (B.body.take l) := by
    have e : B.body.take k = (B.body.take l).take k := by rw [List.take_take, Nat.min_eq_left hkl]
    rw [e]
    exact List.take_sublist _ _
  exact (this.map _).subset h5

/-- in a block entered from `q`, what is available at the end of `q` and not defined here is what comes from strict dominators -/
theorem avail_of_sdom {d b k x : Nat} (h1 : DefIn F x d) (h2 : Domi F d b) (h3 : d ≠ b) : Avail F b k x := ⟨d, h1, h2, fun e => absurd e h3⟩

theorem avail_end {q d x : Nat} (P : Proper F) (h1 : DefIn F x d) (h2 : Domi F d q) {Q : Block Op C} (hQ : F.blk q = some Q) :
    Avail F q Q.body.length x := by
  refine ⟨d, h1, h2, fun e => ⟨Q, hQ, ?_⟩⟩
  subst e
  obtain ⟨B, hB, hi⟩ := h1
  have := Option.some.inj (hB.symm.trans hQ)
  subst this
  rw [List.take_length]
  exact List.mem_append.mp hi

/-- at a point, everything used by the next instruction is available -/
theorem Proper.use_avail (P : Proper F) {b k : Nat} {B : Block Op C} (hB : F.blk b = some B) (hb : Live F b) {i : Inst Op C}
    (hi : B.body[k]? = some i) {x : Nat} (hx : Opd.inst x ∈ i.args) : Avail F b k x := by
  have hib : i ∈ B.body := List.mem_of_getElem? hi
  obtain ⟨d, hd⟩ := P.exists_ b B hB x (mem_operands.mpr (.inr (.inl ⟨i, hib, hx⟩)))
  refine ⟨d, hd, P.useDom b B x d hB hb (.inl ⟨i, hib, hx⟩) hd, fun e => ⟨B, hB, ?_⟩⟩
  subst e
  obtain ⟨B', hB', hm⟩ := hd
  have := Option.some.inj (hB'.symm.trans hB)
  subst this
  obtain ⟨hk, hik⟩ := List.getElem?_eq_some_iff.mp hi
  refine (P.inOrder _ _ hB).1 (B'.body.take k) i (B'.body.drop (k + 1)) ?_ x hx hm
  rw [← hik, List.getElem_cons_drop, List.take_append_drop]

theorem Proper.term_avail (P : Proper F) {b : Nat} {B : Block Op C} (hB : F.blk b = some B) (hb : Live F b) {x : Nat}
    (hx : Opd.inst x ∈ B.term.args) : Avail F b B.body.length x := by
  obtain ⟨d, hd⟩ := P.exists_ b B hB x (mem_operands.mpr (.inr (.inr hx)))
  exact avail_end P hd (P.useDom b B x d hB hb (.inr hx) hd) hB

theorem Proper.phi_avail (P : Proper F) {b q : Nat} {B Q : Block Op C} (hB : F.blk b = some B) (hb : Live F b) (hQ : F.blk q = some Q) (hq : Live F q)
    {p : Phi C} (hp : p ∈ B.phis) {x : Nat} (hx : (q, Opd.inst x) ∈ p.inc) : Avail F q Q.body.length x := by
  have hxo : Opd.inst x ∈ p.ops := mem_ops.mpr ⟨q, hx⟩
  obtain ⟨d, hd⟩ := P.exists_ b B hB x (mem_operands.mpr (.inl ⟨p, hp, hxo⟩))
  exact avail_end P hd (P.phiDom b B p q x d hB hb hp hx hd (P.deadPhis b B p x d hB hb hp hxo hd) hq) hQ

/-- an available instruction that is not a phi: its operands are available too -/
theorem Proper.arg_avail (P : Proper F) {b k d : Nat} (hb : Live F b) {D : Block Op C} (hD : F.blk d = some D) {i : Inst Op C} (hi : i ∈ D.body)
    (h : Avail F b k i.id) {x : Nat} (hx : Opd.inst x ∈ i.args) : Avail F b k x := by
  obtain ⟨d', hd', hdom, hin⟩ := h
  have hdd : DefIn F i.id d := ⟨D, hD, List.mem_append.mpr (.inr (List.mem_map.mpr ⟨i, hi, rfl⟩))⟩
  have := P.home hd' hdd
  subst this
  have hdl := hdom.live hb
  obtain ⟨k', hk', hik⟩ := List.getElem_of_mem hi
  have hik' : D.body[k']? = some i := by rw [List.getElem?_eq_getElem hk', hik]
  have hav := P.use_avail hD hdl hik' hx
  by_cases hdb : d' = b
  · subst hdb
    refine avail_mono hav ?_
    -- `i` occurs among the first `k` instructions
    obtain ⟨B, hB, hm⟩ := hin rfl
    have := Option.some.inj (hB.symm.trans hD)
    subst this
    by_contra hlt
    have hids : B.ids.Nodup := by
      have hu := P.unique
      unfold Func.allIds at hu
      exact (List.nodup_flatMap.mp hu).1 B (P.listed.mem hD)
    unfold Block.ids at hids
    rw [List.nodup_append] at hids
    rcases hm with hm | hm
    · exact hids.2.2 _ hm _ (List.mem_map.mpr ⟨i, hi, rfl⟩) rfl
    · obtain ⟨j, hj, hji⟩ := List.mem_map.mp hm
      obtain ⟨l, hl, hjl⟩ := List.getElem_of_mem hj
      rw [List.getElem_take] at hjl
      rw [List.length_take] at hl
      have h1 : (B.body.map Inst.id)[l]'(by rw [List.length_map]; omega) = (B.body.map Inst.id)[k']'(by rw [List.length_map]; omega) := by
        rw [List.getElem_map, List.getElem_map, hjl, hik, hji]
      have := (List.Nodup.getElem_inj_iff hids.2.1).mp h1
      omega
  · obtain ⟨e, he, hedom, _⟩ := hav
    refine ⟨e, he, hedom.trans hdom, fun heb => ?_⟩
    subst heb
    exact absurd (hdom.antisymm hedom hb) hdb

end

/-! ## all points of all runs -/
section
variable {L : Lang} {F : L.F}

/-- what has to be shown for `Q` to hold at all points of all runs -/
structure PointInv (F : L.F) (Q : Nat → Nat → Env L → Prop) : Prop where
  entry : Q F.entry 0 (fun _ => none)
  enter : ∀ q b B A env env', Live F q → Edge F q b → F.blk q = some A → F.blk b = some B → Q q A.body.length env →
    enterPhis L (some q) env B.phis env = some env' → Q b 0 env'
  inst : ∀ b k B i env vs v m m' es, Live F b → F.blk b = some B → B.body[k]? = some i → Q b k env → evals L env i.args = some vs →
    L.sem i.op vs m = .ok v m' es → Q b (k + 1) (setEnv L env i.id v)

/-- the state between two blocks -/
def Between (F : L.F) (Q : Nat → Nat → Env L → Prop) (s : St L) : Prop :=
  match s.pred with
  | none => s.cur = F.entry ∧ s.env = fun _ => none
  | some q => Live F q ∧ Edge F q s.cur ∧ ∃ A, F.blk q = some A ∧ Q q A.body.length s.env

theorem Between.live {Q : Nat → Nat → Env L → Prop} {s : St L} (h : Between F Q s) : Live F s.cur := by
  unfold Between at h
  split at h
  · rw [h.1]; exact ⟨_, .single _⟩
  · exact h.1.edge h.2.1

theorem PointInv.phis {Q : Nat → Nat → Env L → Prop} (I : PointInv F Q) (P : Proper F) {s : St L} (h : Between F Q s) {B : L.B} (hB : F.blk s.cur = some B) {env : Env L}
    (he : enterPhis L s.pred s.env B.phis s.env = some env) : Q s.cur 0 env := by
  unfold Between at h
  cases hp : s.pred with
  | none =>
    rw [hp] at h he
    obtain ⟨h1, h2⟩ := h
    have := P.entryPhis B (h1 ▸ hB)
    rw [this] at he
    simp only [enterPhis, Option.some.injEq] at he
    rw [← he, h1, h2]
    exact I.entry
  | some q =>
    rw [hp] at h he
    obtain ⟨h1, h2, A, hA, h3⟩ := h
    exact I.enter q s.cur B A s.env env h1 h2 hA hB h3 he

theorem PointInv.body {Q : Nat → Nat → Env L → Prop} (I : PointInv F Q) {b : Nat} {B : L.B} (hb : Live F b) (hB : F.blk b = some B) :
    ∀ (n k : Nat) (env : Env L) (m : L.M) (es : List L.E) {env' m' es'}, B.body.length - k = n → Q b k env →
      execBody L (B.body.drop k) env m es = .ok env' m' es' → k ≤ B.body.length → Q b B.body.length env' := by
  intro n
  induction n with
  | zero =>
    intro k env m es env' m' es' hn hq h hk
    have : k = B.body.length := by omega
    subst this
    rw [List.drop_length] at h
    simp only [execBody, BodyRes.ok.injEq] at h
    rw [← h.1]; exact hq
  | succ n ih =>
    intro k env m es env' m' es' hn hq h hk
    have hlt : k < B.body.length := by omega
    rw [List.drop_eq_getElem_cons hlt] at h
    simp only [execBody] at h
    split at h
    · simp at h
    · rename_i vs hvs
      split at h
      · rename_i v m1 es1 hs
        exact ih (k + 1) _ _ _ (by omega) (I.inst b k B _ env vs v m m1 es1 hb hB (List.getElem?_eq_getElem hlt) hq hvs hs) h hlt
      · simp at h
      · simp at h

theorem PointInv.step {Q : Nat → Nat → Env L → Prop} (I : PointInv F Q) (P : Proper F) {s s' : St L} (h : Between F Q s) (hs : step L F s = .inl s') :
    Between F Q s' := by
  obtain ⟨hpred, B, hB, ht⟩ := step_target hs
  unfold Between
  rw [hpred]
  refine ⟨h.live, ⟨B, hB, ht⟩, B, hB, ?_⟩
  unfold SSA.step at hs
  rw [hB] at hs
  simp only [stepBlk] at hs
  split at hs
  · simp at hs
  · rename_i env he
    split at hs
    · simp at hs
    · simp at hs
    · rename_i env2 m2 es2 hbody
      have hq := I.body h.live hB B.body.length 0 env s.m s.tr (by omega) (I.phis P h hB he) (by rw [List.drop_zero]; exact hbody) (Nat.zero_le _)
      split at hs
      · simp at hs
      · simp at hs
      · simp only [Sum.inl.injEq] at hs
        subst hs
        exact hq

theorem between_start (Q : Nat → Nat → Env L → Prop) (m : L.M) : Between F Q (start L F m) := ⟨rfl, rfl⟩

/-! ### equations of pure instructions -/

theorem Proper.block_ids {Op C : Type} {F : Func Op C} (P : Proper F) {b : Nat} {B : Block Op C} (hB : F.blk b = some B) : B.ids.Nodup := by
  have hu := P.unique
  unfold Func.allIds at hu
  exact (List.nodup_flatMap.mp hu).1 B (P.listed.mem hB)

/-- an instruction is not available before it is executed -/
theorem Proper.not_avail {Op C : Type} {F : Func Op C} (P : Proper F) {b k : Nat} {B : Block Op C} (hB : F.blk b = some B) {i : Inst Op C}
    (hi : B.body[k]? = some i) : ¬ Avail F b k i.id := by
  rintro ⟨d, hd, _, hin⟩
  have him := List.mem_of_getElem? hi
  have hdb : DefIn F i.id b := ⟨B, hB, List.mem_append.mpr (.inr (List.mem_map.mpr ⟨i, him, rfl⟩))⟩
  obtain ⟨B', hB', hm⟩ := hin (P.home hd hdb)
  have := Option.some.inj (hB'.symm.trans hB)
  subst this
  have hids := P.block_ids hB
  unfold Block.ids at hids
  rw [List.nodup_append] at hids
  obtain ⟨hk, hik⟩ := List.getElem?_eq_some_iff.mp hi
  rcases hm with hm | hm
  · exact hids.2.2 _ hm _ (List.mem_map.mpr ⟨i, him, rfl⟩) rfl
  · obtain ⟨j, hj, hji⟩ := List.mem_map.mp hm
    obtain ⟨l, hl, hjl⟩ := List.getElem_of_mem hj
    rw [List.getElem_take] at hjl
    rw [List.length_take] at hl
    have h1 : (B'.body.map Inst.id)[l]'(by rw [List.length_map]; omega) = (B'.body.map Inst.id)[k]'(by rw [List.length_map]; omega) := by
      rw [List.getElem_map, List.getElem_map, hjl, hik, hji]
    have := (List.Nodup.getElem_inj_iff hids.2.1).mp h1
    omega

theorem avail_succ {Op C : Type} {F : Func Op C} {b k x : Nat} {B : Block Op C} (hB : F.blk b = some B) {i : Inst Op C}
    (hi : B.body[k]? = some i) (h : Avail F b (k + 1) x) : Avail F b k x ∨ x = i.id := by
  obtain ⟨d, hd, hdom, hin⟩ := h
  by_cases hdb : d = b
  · obtain ⟨B', hB', hm⟩ := hin hdb
    have := Option.some.inj (hB'.symm.trans hB)
    subst this
    rcases hm with hm | hm
    · exact .inl ⟨d, hd, hdom, fun _ => ⟨B', hB, .inl hm⟩⟩
    · rw [List.take_succ, hi, List.map_append, List.mem_append] at hm
      rcases hm with hm | hm
      · exact .inl ⟨d, hd, hdom, fun _ => ⟨B', hB, .inr hm⟩⟩
      · simp at hm; exact .inr hm
  · exact .inl ⟨d, hd, hdom, fun e => absurd e hdb⟩

/-- what is available in a block right after its phis is a phi of the block or available at the end of every predecessor -/
theorem Proper.avail_enter {Op C : Type} {F : Func Op C} (P : Proper F) {q b x : Nat} {A B : Block Op C} (he : Edge F q b)
    (hA : F.blk q = some A) (hB : F.blk b = some B) (h : Avail F b 0 x) :
    x ∈ B.phis.map Phi.id ∨ (x ∉ B.ids ∧ Avail F q A.body.length x) := by
  obtain ⟨d, hd, hdom, hin⟩ := h
  by_cases hdb : d = b
  · obtain ⟨B', hB', hm⟩ := hin hdb
    have := Option.some.inj (hB'.symm.trans hB)
    subst this
    rcases hm with hm | hm
    · exact .inl hm
    · simp at hm
  · refine .inr ⟨fun hx => hdb (P.home hd ⟨B, hB, hx⟩), avail_end P hd (hdom.pred hdb he) hA⟩

theorem enterPhis_other {pred : Option Nat} {old : Env L} : ∀ {ps : List (Phi L.C)} {env env' : Env L}, enterPhis L pred old ps env = some env' →
    ∀ x, x ∉ ps.map Phi.id → env' x = env x := by
  intro ps
  induction ps with
  | nil => intro env env' h x _; simp only [enterPhis, Option.some.injEq] at h; rw [h]
  | cons p ps ih =>
    intro env env' h x hx
    simp only [enterPhis] at h
    split at h
    · simp at h
    · rw [ih h x (fun hm => hx (by rw [List.map_cons]; exact List.mem_cons_of_mem _ hm))]
      unfold setEnv
      rw [if_neg]
      intro e; apply hx; rw [e]; simp

theorem evals_eq {env env' : Env L} : ∀ {os : List (Opd L.C)}, (∀ x, .inst x ∈ os → env' x = env x) → evals L env' os = evals L env os := by
  intro os
  induction os with
  | nil => intro _; rfl
  | cons o os ih =>
    intro h
    simp only [evals]
    rw [ih (fun x hx => h x (List.mem_cons_of_mem _ hx))]
    cases o with
    | cst c => rfl
    | inst x => simp only [eval]; rw [h x (by simp)]

/-- opcodes marked by `mv` compute a value from their operands and do nothing else -/
def Movable (L : Lang) (mv : L.Op → Bool) : Prop := ∀ op, mv op = true → ∀ vs, (∀ m, L.sem op vs m = .ub) ∨ ∃ v, ∀ m, L.sem op vs m = .ok v m []

/-- every available pure instruction has the value that its operands give it now -/
def Eqns (F : L.F) (mv : L.Op → Bool) (b k : Nat) (env : Env L) : Prop :=
  ∀ d D i, F.blk d = some D → i ∈ D.body → mv i.op = true → Avail F b k i.id →
    ∃ vs v, evals L env i.args = some vs ∧ env i.id = some v ∧ ∀ m, L.sem i.op vs m = .ok v m []

/-- the equations of SSA form hold at every point of every run -/
theorem eqns_inv {mv : L.Op → Bool} (hmv : Movable L mv) (P : Proper F) : PointInv F (Eqns F mv) := by
  refine ⟨?_, ?_, ?_⟩
  · intro d D i hD hi _ hav
    obtain ⟨d', hd', hdom, hin⟩ := hav
    have hd := domi_entry hdom
    obtain ⟨B, hB, hm⟩ := hin hd
    rw [P.entryPhis B hB] at hm
    simp at hm
  · intro q b B A env env' hq he hA hB hQ hen d D i hD hi hop hav
    have hdd : DefIn F i.id d := ⟨D, hD, List.mem_append.mpr (.inr (List.mem_map.mpr ⟨i, hi, rfl⟩))⟩
    have hdb : d ≠ b := by
      rintro rfl
      have := Option.some.inj (hD.symm.trans hB)
      subst this
      obtain ⟨d', hd', _, hin⟩ := hav
      obtain ⟨B', hB', hm⟩ := hin (P.home hd' hdd)
      have := Option.some.inj (hB'.symm.trans hB)
      subst this
      have hids := P.block_ids hB
      unfold Block.ids at hids
      rw [List.nodup_append] at hids
      rcases hm with hm | hm
      · exact hids.2.2 _ hm _ (List.mem_map.mpr ⟨i, hi, rfl⟩) rfl
      · simp at hm
    obtain ⟨d', hd', hdom, _⟩ := hav
    have := P.home hd' hdd
    subst this
    have hb := hq.edge he
    have hself : i.id ∉ B.phis.map Phi.id := fun hm => hdb (P.home hdd ⟨B, hB, List.mem_append.mpr (.inl hm)⟩)
    have harg : ∀ x, Opd.inst x ∈ i.args → x ∉ B.phis.map Phi.id := by
      intro x hx hm
      have h1 : DefIn F x b := ⟨B, hB, List.mem_append.mpr (.inl hm)⟩
      have h2 := P.useDom d' D x b hD (hdom.live hb) (.inl ⟨i, hi, hx⟩) h1
      exact hdb (hdom.antisymm h2 hb)
    obtain ⟨vs, v, e1, e2, e3⟩ := hQ d' D i hD hi hop (avail_end P hdd (hdom.pred hdb he) hA)
    refine ⟨vs, v, ?_, ?_, e3⟩
    · rw [evals_eq (fun x hx => enterPhis_other hen x (harg x hx))]; exact e1
    · rw [enterPhis_other hen _ hself]; exact e2
  · intro b k B i0 env vs0 v0 m0 m0' es0 hb hB hi0 hQ hvs0 hs0 d D i hD hi hop hav
    have hna := P.not_avail hB hi0
    rcases avail_succ hB hi0 hav with h | h
    · obtain ⟨vs, v, e1, e2, e3⟩ := hQ d D i hD hi hop h
      have hne : i.id ≠ i0.id := fun e => hna (e ▸ h)
      refine ⟨vs, v, ?_, ?_, e3⟩
      · rw [evals_eq (env := env)]
        · exact e1
        · intro x hx
          have hx' := P.arg_avail hb hD hi h hx
          unfold setEnv
          rw [if_neg]
          intro e; exact hna (e ▸ hx')
      · unfold setEnv; rw [if_neg hne]; exact e2
    · -- it is the instruction just executed
      have h0 := List.mem_of_getElem? hi0
      have hdb : d = b := P.home (i := i.id) ⟨D, hD, List.mem_append.mpr (.inr (List.mem_map.mpr ⟨i, hi, rfl⟩))⟩
        (h ▸ ⟨B, hB, List.mem_append.mpr (.inr (List.mem_map.mpr ⟨i0, h0, rfl⟩))⟩)
      subst hdb
      have := Option.some.inj (hD.symm.trans hB)
      subst this
      have hii : i = i0 := by
        have hids := P.block_ids hB
        unfold Block.ids at hids
        rw [List.nodup_append] at hids
        exact List.inj_on_of_nodup_map hids.2.1 hi h0 h
      subst hii
      refine ⟨vs0, v0, ?_, by simp [setEnv], ?_⟩
      · rw [evals_eq (env := env)]
        · exact hvs0
        · intro x hx
          have hx' := P.use_avail hB hb hi0 hx
          unfold setEnv
          rw [if_neg]
          intro e; exact hna (e ▸ hx')
      · intro m
        rcases hmv i.op hop vs0 with hu | ⟨w, hw⟩
        · rw [hu m0] at hs0; simp at hs0
        · rw [hw m0] at hs0
          simp only [Res.ok.injEq] at hs0
          rw [hw m, hs0.1]

/-! ### replacing operands -/

/-- replace instruction operands by `σ` -/
def Opd.sub {C : Type} (σ : Nat → Opd C) : Opd C → Opd C
  | .inst x => σ x
  | .cst c => .cst c

def Term.sub {C : Type} (σ : Nat → Opd C) : Term C → Term C
  | .ret v => .ret (v.map (Opd.sub σ))
  | .br t => .br t
  | .cbr c t f => .cbr (c.sub σ) t f
  | .sw c d cs => .sw (c.sub σ) d cs
  | .unreachable => .unreachable

def Phi.sub {C : Type} (σ : Nat → Opd C) (p : Phi C) : Phi C := { p with inc := p.inc.map (fun e => (e.1, e.2.sub σ)) }
def Inst.sub {Op C : Type} (σ : Nat → Opd C) (i : Inst Op C) : Inst Op C := { i with args := i.args.map (Opd.sub σ) }
def Block.sub {Op C : Type} (σ : Nat → Opd C) (B : Block Op C) : Block Op C :=
  { phis := B.phis.map (Phi.sub σ), body := B.body.map (Inst.sub σ), term := B.term.sub σ }

/-- `inst->replaceWith(value)` for all instructions at once (Value.cpp / Instruction.cpp: every user's operand slot is reset) -/
def Func.sub {Op C : Type} (F : Func Op C) (σ : Nat → Opd C) : Func Op C := { F with blk := fun b => (F.blk b).map (Block.sub σ) }

theorem evals_sub {σ : Nat → Opd L.C} {env : Env L} : ∀ {os : List (Opd L.C)}, (∀ x, .inst x ∈ os → eval L env (σ x) = env x) →
    evals L env (os.map (Opd.sub σ)) = evals L env os := by
  intro os
  induction os with
  | nil => intro _; rfl
  | cons o os ih =>
    intro h
    simp only [List.map_cons, evals]
    rw [ih (fun x hx => h x (List.mem_cons_of_mem _ hx))]
    cases o with
    | cst c => rfl
    | inst x => simp only [Opd.sub]; rw [h x (by simp)]; rfl

theorem evalTerm_sub {σ : Nat → Opd L.C} {env : Env L} {t : Term L.C} (h : ∀ x, .inst x ∈ t.args → eval L env (σ x) = env x) :
    evalTerm L env (t.sub σ) = evalTerm L env t := by
  have : ∀ {o : Opd L.C}, o ∈ t.args → eval L env (o.sub σ) = eval L env o := by
    intro o ho
    cases o with
    | cst c => rfl
    | inst x => exact h x ho
  cases t with
  | ret v =>
    cases v with
    | none => rfl
    | some o => simp only [Term.sub, Option.map_some, evalTerm, this (o := o) (by simp [Term.args])]
  | br t => rfl
  | cbr c t f => simp only [Term.sub, evalTerm, this (o := c) (by simp [Term.args])]
  | sw c d cs => simp only [Term.sub, evalTerm, this (o := c) (by simp [Term.args])]
  | unreachable => rfl

theorem Phi.at_sub {C : Type} {σ : Nat → Opd C} {p : Phi C} {q : Nat} : (p.sub σ).at q = (p.at q).map (Opd.sub σ) := by
  unfold Phi.at Phi.sub
  simp only [List.find?_map, Option.map_map]
  rfl

theorem Phi.at_mem {C : Type} {p : Phi C} {q : Nat} {v : Opd C} (h : p.at q = some v) : (q, v) ∈ p.inc := by
  unfold Phi.at at h
  rw [Option.map_eq_some_iff] at h
  obtain ⟨e, he, rfl⟩ := h
  have h1 := List.find?_some he
  simp only [beq_iff_eq] at h1
  rw [← h1]
  exact List.mem_of_find?_eq_some he

theorem enterPhis_sub {σ : Nat → Opd L.C} {q : Nat} {old : Env L} : ∀ {ps : List (Phi L.C)} {env : Env L},
    (∀ p ∈ ps, ∀ x, (q, .inst x) ∈ p.inc → eval L old (σ x) = old x) →
    enterPhis L (some q) old (ps.map (Phi.sub σ)) env = enterPhis L (some q) old ps env := by
  intro ps
  induction ps with
  | nil => intro env _; rfl
  | cons p ps ih =>
    intro env h
    have : phiVal L (some q) old (p.sub σ) = phiVal L (some q) old p := by
      simp only [phiVal, Phi.at_sub]
      cases hp : p.at q with
      | none => rfl
      | some o =>
        simp only [Option.map_some]
        cases o with
        | cst c => rfl
        | inst x => exact h p (by simp) x (Phi.at_mem hp)
    simp only [List.map_cons, enterPhis, this]
    split
    · rfl
    · exact ih (fun p hp => h p (List.mem_cons_of_mem _ hp))

theorem execBody_sub {Q : Nat → Nat → Env L → Prop} (I : PointInv F Q) (P : Proper F) {σ : Nat → Opd L.C}
    (hσ : ∀ b k env x, Live F b → Q b k env → Avail F b k x → eval L env (σ x) = env x) {b : Nat} {B : L.B} (hb : Live F b) (hB : F.blk b = some B) :
    ∀ (n k : Nat) (env : Env L) (m : L.M) (es : List L.E), B.body.length - k = n → Q b k env →
      execBody L ((B.body.drop k).map (Inst.sub σ)) env m es = execBody L (B.body.drop k) env m es := by
  intro n
  induction n with
  | zero =>
    intro k env m es hn _
    rw [List.drop_eq_nil_of_le (by omega)]
    rfl
  | succ n ih =>
    intro k env m es hn hq
    have hlt : k < B.body.length := by omega
    rw [List.drop_eq_getElem_cons hlt]
    have hget := List.getElem?_eq_getElem hlt
    simp only [List.map_cons, execBody]
    have he : evals L env (Inst.sub σ B.body[k]).args = evals L env B.body[k].args :=
      evals_sub (fun x hx => hσ b k env x hb hq (P.use_avail hB hb hget hx))
    rw [he]
    cases hvs : evals L env B.body[k].args with
    | none => rfl
    | some vs =>
      simp only [Inst.sub]
      cases hs : L.sem B.body[k].op vs m with
      | ub => rfl
      | halt es h => rfl
      | ok v m1 es1 =>
        exact ih (k + 1) _ _ _ (by omega) (I.inst b k B _ env vs v m m1 es1 hb hB hget hq hvs hs)

/-- If at every point of every run an available instruction `x` has the value of `σ x`, replacing `x` by `σ x` everywhere changes nothing. -/
theorem refines_sub {Q : Nat → Nat → Env L → Prop} (I : PointInv F Q) (P : Proper F) {σ : Nat → Opd L.C}
    (hσ : ∀ b k env x, Live F b → Q b k env → Avail F b k x → eval L env (σ x) = env x) : Refines L F (F.sub σ) := by
  refine refines_lockstep (Between F Q) rfl (between_start Q) ?_
  intro s h
  right
  refine ⟨?_, fun s' hs => I.step P h hs⟩
  unfold SSA.step
  cases hB : F.blk s.cur with
  | none => simp [Func.sub, hB]
  | some B =>
    simp only [Func.sub, hB, Option.map_some]
    unfold stepBlk
    have hph : enterPhis L s.pred s.env (B.sub σ).phis s.env = enterPhis L s.pred s.env B.phis s.env := by
      cases hp : s.pred with
      | none => exact enterPhis_congr (by simp [Block.sub]) _
      | some q =>
        unfold Between at h
        rw [hp] at h
        obtain ⟨hq, he, A, hA, hQ⟩ := h
        exact enterPhis_sub (fun p hp' x hx => hσ q _ s.env x hq hQ (P.phi_avail hB (hq.edge he) hA hq hp' hx))
    rw [hph]
    cases he : enterPhis L s.pred s.env B.phis s.env with
    | none => rfl
    | some env =>
      have h0 := I.phis P h hB he
      have hbd := execBody_sub I P hσ h.live hB B.body.length 0 env s.m s.tr (by omega) h0
      rw [List.drop_zero] at hbd
      simp only [Block.sub]
      rw [hbd]
      cases hx : execBody L B.body env s.m s.tr with
      | ub => rfl
      | halt es h => rfl
      | ok env2 m2 es2 =>
        simp only
        have hq := I.body h.live hB B.body.length 0 env s.m s.tr (by omega) h0 (by rw [List.drop_zero]; exact hx) (Nat.zero_le _)
        rw [evalTerm_sub (fun x hx => hσ s.cur _ env2 x h.live hq (P.term_avail hB h.live hx))]

end
end Cmmc.SSA
