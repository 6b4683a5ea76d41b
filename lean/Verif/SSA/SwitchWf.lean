import Verif.SSA.Switch
/-! # Branch2Switch: one conversion keeps SSA form -/
namespace Cmmc.SSA
section
variable {Op C : Type}

/-- the function after the conversion -/
def swFn (F : Func Op C) (h : Nat) (base : Opd C) (cs : List (Int × Nat)) (d par : Nat) : Func Op C :=
  { F with blk := fun x => (F.blk x).map (fun X => ⟨if x = d then copyPhis par h X.phis else X.phis, X.body, if x = h then .sw base d cs else X.term⟩) }

/-- one conversion at block `h`: `ls` are the blocks that the `switch` replaces -/
structure SwStep (P : B2W Op C) (mv : Op → Bool) (F : Func Op C) (h : Nat) (base : Opd C) (k1 : Int) (t1 b1 : Nat) (ls : List Nat) (cs : List (Int × Nat)) (d par : Nat) : Prop where
  head : P.matchEqual F h = some (base, k1, t1, b1)
  links : Links P F base b1 h ls cs d par
  keys : (k1 :: cs.map Prod.fst).Nodup
  noPhi : ∀ e ∈ (k1, t1) :: cs, ∀ B, F.blk e.2 = some B → B.phis = []
  ne : cs ≠ []
  pure : ∀ l ∈ ls, ∀ B, F.blk l = some B → B.phis = [] ∧ ∀ i ∈ B.body, mv i.op = true
  phis : ∀ D, F.blk d = some D → ∀ p ∈ D.phis, (∃ v, p.at par = some v) ∧ p.at h = none
  live : Live F h

variable {P : B2W Op C} {mv : Op → Bool} {F : Func Op C} {h : Nat} {base : Opd C} {k1 : Int} {t1 b1 : Nat} {ls : List Nat} {cs cs' : List (Int × Nat)} {d par : Nat}

theorem matchEqual_edges {b t fb : Nat} {k : Int} (hm : P.matchEqual F b = some (base, k, t, fb)) : Edge F b t ∧ Edge F b fb ∧ ∀ y, Edge F b y → y = t ∨ y = fb := by
  obtain ⟨B, i, e, c, _, _, hB, ht, _⟩ := matchEqual_some hm
  refine ⟨⟨B, hB, ?_⟩, ⟨B, hB, ?_⟩, ?_⟩
  · rw [ht]; cases e <;> simp [Term.targets]
  · rw [ht]; cases e <;> simp [Term.targets]
  · rintro y ⟨B', hB', hy⟩
    obtain rfl := Option.some.inj (hB'.symm.trans hB)
    rw [ht] at hy
    cases e <;> simp [Term.targets] at hy <;> tauto

theorem Links.mem {b par0 : Nat} (L : Links P F base b par0 ls cs d par) {l : Nat} (hl : l ∈ ls) : OwnTerm F l ∧ ∃ k t fb, P.matchEqual F l = some (base, k, t, fb) ∧ (k, t) ∈ cs := by
  induction L with
  | stop => simp at hl
  | @link b par0 k t fb ls cs d par ho hm _ ih =>
    rcases List.mem_cons.1 hl with rfl | hl
    · exact ⟨ho, k, t, fb, hm, by simp⟩
    · obtain ⟨h1, k', t', fb', h2, h3⟩ := ih hl
      exact ⟨h1, k', t', fb', h2, by simp [h3]⟩

/-- ways through the chain -/
theorem Links.paths {b par0 : Nat} (L : Links P F base b par0 ls cs d par) :
    (∀ e ∈ cs, ∃ p, Dom.Path (Edge F) b e.2 p ∧ ∀ z ∈ p, z ∈ ls ∨ z = e.2) ∧ (∃ p, Dom.Path (Edge F) b d p ∧ ∀ z ∈ p, z ∈ ls ∨ z = d) ∧
    (ls ≠ [] → par ∈ ls ∧ Edge F par d ∧ ∃ p, Dom.Path (Edge F) b par p ∧ ∀ z ∈ p, z ∈ ls) := by
  induction L with
  | stop b par => exact ⟨by simp, ⟨[b], .single _, by simp⟩, fun h => absurd rfl h⟩
  | @link b par0 k t fb ls cs d par _ hm L ih =>
    obtain ⟨e1, e2, _⟩ := matchEqual_edges hm
    obtain ⟨h1, ⟨p, hp, hp2⟩, h3⟩ := ih
    refine ⟨?_, ⟨b :: p, .cons e2 hp, ?_⟩, ?_⟩
    · intro e he
      rcases List.mem_cons.1 he with rfl | he
      · exact ⟨[b, t], .cons e1 (.single _), by simp⟩
      · obtain ⟨p, hp, hp2⟩ := h1 e he
        refine ⟨b :: p, .cons e2 hp, ?_⟩
        intro z hz
        rcases List.mem_cons.1 hz with rfl | hz
        · simp
        · rcases hp2 z hz with h | h <;> simp [h]
    · intro z hz
      rcases List.mem_cons.1 hz with rfl | hz
      · simp
      · rcases hp2 z hz with h | h <;> simp [h]
    · intro _
      cases L with
      | stop => exact ⟨by simp, e2, [b], .single _, by simp⟩
      | link ho' hm' L' =>
        obtain ⟨h4, h5, q, hq, hq2⟩ := h3 (by simp)
        refine ⟨by simp [h4], h5, b :: q, .cons e2 hq, ?_⟩
        intro z hz
        rcases List.mem_cons.1 hz with rfl | hz
        · simp
        · exact List.mem_cons_of_mem _ (hq2 z hz)

theorem Links.ls_ne {b par0 : Nat} (L : Links P F base b par0 ls cs d par) (h : cs ≠ []) : ls ≠ [] := by
  cases L with
  | stop => exact absurd rfl h
  | link => simp

namespace SwStep
variable (S : SwStep P mv F h base k1 t1 b1 ls cs d par)
include S

theorem h_notin : h ∉ ls := by
  intro hl
  obtain ⟨_, k, t, fb, hm, hc⟩ := S.links.mem hl
  rw [S.head] at hm
  simp only [Option.some.injEq, Prod.mk.injEq] at hm
  have := S.keys
  rw [List.nodup_cons] at this
  exact this.1 (List.mem_map.2 ⟨(k, t), hc, hm.2.1.symm⟩)

theorem ls_ne : ls ≠ [] := S.links.ls_ne S.ne

theorem blk {x : Nat} {X' : Block Op C} (hX : (swFn F h base cs' d par).blk x = some X') : ∃ X, F.blk x = some X ∧ X' = ⟨if x = d then copyPhis par h X.phis else X.phis, X.body, if x = h then .sw base d cs' else X.term⟩ := by
  obtain ⟨X, h1, h2⟩ := Option.map_eq_some_iff.1 hX
  exact ⟨X, h1, h2.symm⟩

theorem blk' {x : Nat} {X : Block Op C} (hX : F.blk x = some X) : (swFn F h base cs' d par).blk x = some ⟨if x = d then copyPhis par h X.phis else X.phis, X.body, if x = h then .sw base d cs' else X.term⟩ := by
  show (F.blk x).map _ = _
  rw [hX]; rfl

theorem edge_ne {x y : Nat} (hx : x ≠ h) : Edge (swFn F h base cs' d par) x y ↔ Edge F x y := by
  constructor
  · rintro ⟨X', hX', hy⟩
    obtain ⟨X, hX, rfl⟩ := S.blk hX'
    simp only [if_neg hx] at hy
    exact ⟨X, hX, hy⟩
  · rintro ⟨X, hX, hy⟩
    exact ⟨_, S.blk' hX, by simp only [if_neg hx]; exact hy⟩

theorem edge_h (hc : cs'.Perm ((k1, t1) :: cs)) {y : Nat} : Edge (swFn F h base cs' d par) h y ↔ y = d ∨ ∃ e ∈ (k1, t1) :: cs, e.2 = y := by
  have : ∀ e, e ∈ cs' ↔ e ∈ (k1, t1) :: cs := fun e => hc.mem_iff
  constructor
  · rintro ⟨X', hX', hy⟩
    obtain ⟨X, hX, rfl⟩ := S.blk hX'
    simp only [if_true, Term.targets, List.mem_cons, List.mem_map] at hy
    rcases hy with rfl | ⟨e, he, rfl⟩
    · exact .inl rfl
    · exact .inr ⟨e, (this e).1 he, rfl⟩
  · intro hy
    obtain ⟨B, _, _, _, _, _, hB, _⟩ := matchEqual_some S.head
    refine ⟨_, S.blk' hB, ?_⟩
    simp only [if_true, Term.targets, List.mem_cons, List.mem_map]
    rcases hy with rfl | ⟨e, he, rfl⟩
    · exact .inl rfl
    · exact .inr ⟨e, (this e).2 he, rfl⟩

/-- the way that a jump of the switch replaces -/
theorem detour {y : Nat} (hy : y = d ∨ ∃ e ∈ (k1, t1) :: cs, e.2 = y) : ∃ p, Dom.Path (Edge F) h y (h :: p) ∧ ∀ z ∈ p, z ∈ ls ∨ z = y := by
  obtain ⟨e1, e2, _⟩ := matchEqual_edges S.head
  obtain ⟨h1, ⟨p, hp, hp2⟩, _⟩ := S.links.paths
  rcases hy with rfl | ⟨e, he, rfl⟩
  · exact ⟨p, .cons e2 hp, hp2⟩
  · rcases List.mem_cons.1 he with rfl | he
    · exact ⟨[t1], .cons e1 (.single _), by simp⟩
    · obtain ⟨p, hp, hp2⟩ := h1 e he
      exact ⟨p, .cons e2 hp, hp2⟩

theorem toPar : par ∈ ls ∧ Edge F par d ∧ ∃ p, Dom.Path (Edge F) h par (h :: p) ∧ ∀ z ∈ p, z ∈ ls := by
  obtain ⟨_, e2, _⟩ := matchEqual_edges S.head
  obtain ⟨h1, h2, p, hp, hp2⟩ := S.links.paths.2.2 S.ls_ne
  exact ⟨h1, h2, p, .cons e2 hp, hp2⟩

theorem expand (hc : cs'.Perm ((k1, t1) :: cs)) {a b : Nat} {p : List Nat} (hp : Dom.Path (Edge (swFn F h base cs' d par)) a b p) : ∃ p', Dom.Path (Edge F) a b p' ∧ ∀ z ∈ p', z ∈ p ∨ z ∈ ls := by
  induction hp with
  | single a => exact ⟨[a], .single _, by simp⟩
  | @cons a y c p e hp ih =>
    obtain ⟨p', hp', hz⟩ := ih
    by_cases ha : a = h
    · subst ha
      obtain ⟨q, hq, hq2⟩ := S.detour ((S.edge_h hc).1 e)
      have hyp : y ∈ p := by cases hp <;> simp
      have app : ∀ {a y c : Nat} {q p' : List Nat}, Dom.Path (Edge F) a y q → Dom.Path (Edge F) y c p' → ∃ r, Dom.Path (Edge F) a c r ∧ ∀ z ∈ r, z ∈ q ∨ z ∈ p' := by
        intro a y c q p' h1 h2
        induction h1 with
        | single => exact ⟨p', h2, fun z hz => .inr hz⟩
        | cons e _ ih =>
          obtain ⟨r, hr, hr2⟩ := ih h2
          refine ⟨_, .cons e hr, fun z hz => ?_⟩
          rcases List.mem_cons.1 hz with rfl | hz
          · simp
          · rcases hr2 z hz with h | h <;> simp [h]
      obtain ⟨r, hr, hr2⟩ := app hq hp'
      refine ⟨r, hr, fun z hzr => ?_⟩
      rcases hr2 z hzr with h1 | h1
      · rcases List.mem_cons.1 h1 with rfl | h1
        · simp
        · rcases hq2 z h1 with h2 | rfl
          · exact .inr h2
          · exact .inl (List.mem_cons_of_mem _ hyp)
      · rcases hz z h1 with h2 | h2
        · exact .inl (List.mem_cons_of_mem _ h2)
        · exact .inr h2
    · refine ⟨a :: p', .cons ((S.edge_ne ha).1 e) hp', fun z hz' => ?_⟩
      rcases List.mem_cons.1 hz' with rfl | hz'
      · simp
      · rcases hz z hz' with h2 | h2
        · exact .inl (List.mem_cons_of_mem _ h2)
        · exact .inr h2

theorem live_of (hc : cs'.Perm ((k1, t1) :: cs)) {b : Nat} (hb : Live (swFn F h base cs' d par) b) : Live F b := by
  obtain ⟨p, hp⟩ := hb
  obtain ⟨p', hp', _⟩ := S.expand hc hp
  exact ⟨p', hp'⟩

theorem domi (hc : cs'.Perm ((k1, t1) :: cs)) {z b : Nat} (hd : Domi F z b) (hz : z ∉ ls ∨ z = b) : Domi (swFn F h base cs' d par) z b := by
  intro p hp
  obtain ⟨p', hp', h2⟩ := S.expand hc hp
  rcases h2 z (hd p' hp') with h3 | h3
  · exact h3
  · rcases hz with h4 | rfl
    · exact absurd h3 h4
    · exact path_end hp

/-- only the links may become unreachable -/
theorem live_keep (hc : cs'.Perm ((k1, t1) :: cs)) {b : Nat} (hb : Live F b) : Live (swFn F h base cs' d par) b ∨ b ∈ ls := by
  -- the head stays reachable
  have hh : Live (swFn F h base cs' d par) h := by
    obtain ⟨p, hp⟩ := S.live
    show Dom.Reachable (Edge (swFn F h base cs' d par)) F.entry h
    have : ∀ {a c : Nat} {p : List Nat}, Dom.Path (Edge F) a c p → c = h → Dom.Reachable (Edge (swFn F h base cs' d par)) a h := by
      intro a c p hp hch
      induction hp with
      | single a => subst hch; exact ⟨_, .single _⟩
      | @cons a y c p e hp ih =>
        by_cases ha : a = h
        · subst ha; exact ⟨_, .single _⟩
        · obtain ⟨q, hq⟩ := ih hch
          exact ⟨_, .cons ((S.edge_ne ha).2 e) hq⟩
    exact this hp rfl
  have tgt : ∀ {y : Nat}, (y = d ∨ ∃ e ∈ (k1, t1) :: cs, e.2 = y) → Live (swFn F h base cs' d par) y := fun hy => hh.edge ((S.edge_h hc).2 hy)
  obtain ⟨p, hp⟩ := hb
  generalize hn : p.length = n
  induction n generalizing b p with
  | zero => cases hp <;> simp at hn
  | succ n ih =>
    rcases path_unsnoc hp with ⟨rfl, _⟩ | ⟨q, p', hp', e, rfl⟩
    · exact .inl ⟨_, .single _⟩
    · have hq := ih p' hp' (by simpa using hn)
      have chain : ∀ {b0 par0 l0 c0 : _}, Links P F base b0 par0 l0 c0 d par → (∀ x ∈ l0, x ∈ ls) → (∀ e ∈ c0, e ∈ (k1, t1) :: cs) → b0 = b → Live (swFn F h base cs' d par) b ∨ b ∈ ls := by
        intro b0 par0 l0 c0 L hl hc0 hb
        cases L with
        | stop => subst hb; exact .inl (tgt (.inl rfl))
        | link _ _ _ => subst hb; exact .inr (hl _ (by simp))
      by_cases hqh : q = h
      · subst hqh
        rcases (matchEqual_edges S.head).2.2 b e with rfl | rfl
        · exact .inl (tgt (.inr ⟨(k1, b), by simp, rfl⟩))
        · exact chain S.links (fun _ h => h) (fun e he => List.mem_cons_of_mem _ he) rfl
      · rcases hq with hq | hq
        · exact .inl (hq.edge ((S.edge_ne hqh).2 e))
        · -- the predecessor is a link
          have next : ∀ {b0 par0 l0 c0 : _}, Links P F base b0 par0 l0 c0 d par → (∀ x ∈ l0, x ∈ ls) → (∀ e ∈ c0, e ∈ (k1, t1) :: cs) → q ∈ l0 → Live (swFn F h base cs' d par) b ∨ b ∈ ls := by
            intro b0 par0 l0 c0 L
            generalize hd' : d = d', hp' : par = par' at L
            induction L with
            | stop => intro _ _ h; simp at h
            | @link b0 par0 k t fb l0 c0 d0 par1 _ hm L ih2 =>
              subst hd' hp'
              intro hl hc0 hql
              rcases List.mem_cons.1 hql with rfl | hql
              · rcases (matchEqual_edges hm).2.2 b e with rfl | rfl
                · exact .inl (tgt (.inr ⟨(k, b), hc0 _ (by simp), rfl⟩))
                · exact chain L (fun x hx => hl x (by simp [hx])) (fun e he => hc0 e (by simp [he])) rfl
              · exact ih2 rfl rfl (fun x hx => hl x (by simp [hx])) (fun e he => hc0 e (by simp [he])) hql
          exact next S.links (fun _ h => h) (fun e he => List.mem_cons_of_mem _ he) hq

theorem ids {X : Block Op C} {x : Nat} : (if x = d then copyPhis par h X.phis else X.phis).map Phi.id = X.phis.map Phi.id := by
  split
  · unfold copyPhis
    rw [List.map_map]
    apply List.map_congr_left
    intro p _
    show (match p.at par with | some v => p.addIncoming h v | none => p).id = p.id
    cases p.at par <;> rfl
  · rfl

theorem defIn {x b : Nat} : DefIn (swFn F h base cs' d par) x b ↔ DefIn F x b := by
  constructor
  · rintro ⟨X', hX', hx⟩
    obtain ⟨X, hX, rfl⟩ := S.blk hX'
    refine ⟨X, hX, ?_⟩
    unfold Block.ids at hx ⊢
    rwa [S.ids] at hx
  · rintro ⟨X, hX, hx⟩
    refine ⟨_, S.blk' hX, ?_⟩
    unfold Block.ids at hx ⊢
    rwa [S.ids]

/-- an entry of a phi afterwards: an old one, or the one for the head -/
theorem inc {X : Block Op C} {x : Nat} (hX : F.blk x = some X) {p : Phi C} (hp : p ∈ (if x = d then copyPhis par h X.phis else X.phis)) :
    ∃ p0 ∈ X.phis, p.id = p0.id ∧ ∀ q v, (q, v) ∈ p.inc ↔ (q, v) ∈ p0.inc ∨ (x = d ∧ q = h ∧ p0.at par = some v) := by
  split at hp
  · rename_i hx
    subst hx
    unfold copyPhis at hp
    obtain ⟨p0, h0, rfl⟩ := List.mem_map.1 hp
    obtain ⟨⟨v, hv⟩, _⟩ := S.phis X hX p0 h0
    refine ⟨p0, h0, by rw [hv]; rfl, ?_⟩
    intro q w
    rw [hv]
    simp only [Phi.addIncoming, List.mem_append, List.mem_singleton, Prod.mk.injEq, Option.some.injEq, true_and]
    constructor
    · rintro (h | ⟨rfl, rfl⟩)
      · exact .inl h
      · exact .inr ⟨rfl, rfl⟩
    · rintro (h | ⟨rfl, rfl⟩)
      · exact .inl h
      · exact .inr ⟨rfl, rfl⟩
  · rename_i hx
    exact ⟨p, hp, rfl, fun q v => by simp [hx]⟩

/-- the value of the switch is defined before it -/
theorem base_def (W : LiveWf F) {y : Nat} (hy : base = .inst y) : ∃ z, DefIn F y z ∧ Domi F z h ∧ z ∉ ls := by
  obtain ⟨B, i, e, c, d', D, hB, ht, hD, hi, _, hargs, _⟩ := matchEqual_some S.head
  have hdef : DefIn F i.id d' := ⟨D, hD, List.mem_append.2 (.inr (List.mem_map.2 ⟨i, hi, rfl⟩))⟩
  have h1 := W.useDom hB S.live (.inr (by rw [ht]; simp [Term.args])) hdef
  have hx : Opd.inst y ∈ i.args := by rw [hargs, hy]; simp
  obtain ⟨z, hz, hzd⟩ := W.use d' D y hD (h1.live S.live) (.inl ⟨i, hi, hx⟩)
  refine ⟨z, hz, hzd.trans h1, fun hl => ?_⟩
  exact ((S.links.mem hl).1 y d' D hz hD).2.1 i hi hx

theorem liveWf (W : LiveWf F) (hc : cs'.Perm ((k1, t1) :: cs)) : LiveWf (swFn F h base cs' d par) := by
  refine { nodup := W.nodup, listed := ?_, total := ?_, entryIn := W.entryIn, closed := ?_, unique := ?_, entryPhis := ?_, inOrder := ?_, use := ?_, phiUse := ?_, phiPred := ?_, phiAll := ?_, phiDead := ?_ }
  · intro b B' hB'
    obtain ⟨B, hB, _⟩ := S.blk hB'
    exact W.listed b B hB
  · intro b hb
    obtain ⟨B, hB⟩ := W.total b hb
    exact ⟨_, S.blk' hB⟩
  · intro a b e
    by_cases ha : a = h
    · subst ha
      obtain ⟨p, hp, _⟩ := S.detour ((S.edge_h hc).1 e)
      rcases path_unsnoc hp with ⟨rfl, _⟩ | ⟨q, _, _, e', _⟩
      · exact W.listed _ _ (matchEqual_some S.head).choose_spec.choose_spec.choose_spec.choose_spec.choose_spec.choose_spec.1
      · exact W.closed q b e'
    · exact W.closed a b ((S.edge_ne ha).1 e)
  · have : (swFn F h base cs' d par).allIds = F.allIds := by
      rw [allIds_eq, allIds_eq]
      show F.order.flatMap _ = F.order.flatMap _
      congr 1
      funext b
      cases hB : F.blk b with
      | none => simp [swFn, hB]
      | some B =>
        rw [S.blk' hB]
        simp only [Block.ids]
        rw [S.ids]
    rw [this]; exact W.unique
  · intro B' hB'
    obtain ⟨B, hB, rfl⟩ := S.blk hB'
    have := W.entryPhis B hB
    show (if _ then copyPhis par h B.phis else B.phis) = []
    rw [this]; simp [copyPhis]
  · intro b B' hB' hl
    obtain ⟨B, hB, rfl⟩ := S.blk hB'
    have ho := W.inOrder b B hB (S.live_of hc hl)
    constructor
    · intro pre i post e x hx hin
      simp only [Block.ids, S.ids] at hin ⊢
      exact ho.1 pre i post e x hx hin
    · intro x hx hin
      simp only [Block.ids, S.ids] at hin ⊢
      exact List.mem_append.1 hin
  · intro b B' x hB' hl hx
    obtain ⟨B, hB, rfl⟩ := S.blk hB'
    simp only at hx
    have hlF := S.live_of hc hl
    by_cases hxb : (∃ i ∈ B.body, Opd.inst x ∈ i.args) ∨ (b ≠ h ∧ Opd.inst x ∈ B.term.args)
    · obtain ⟨z, hz, hzd⟩ := W.use b B x hB hlF (hxb.imp id (fun h => h.2))
      refine ⟨z, S.defIn.2 hz, S.domi hc hzd ?_⟩
      by_cases hzl : z ∈ ls
      · right
        have ho := (S.links.mem hzl).1 x b B hz hB
        rcases hxb with ⟨i, hi, hxi⟩ | ⟨_, hxt⟩
        · exact absurd hxi (ho.2.1 i hi)
        · exact (ho.2.2 hxt).symm
      · exact .inl hzl
    · have hbh : b = h := by
        by_contra hne
        apply hxb
        rcases hx with hx | hx
        · exact .inl hx
        · rw [if_neg hne] at hx; exact .inr ⟨hne, hx⟩
      subst hbh
      rcases hx with hx | hx
      · exact absurd (.inl hx) hxb
      · rw [if_pos rfl] at hx
        simp only [Term.args, List.mem_singleton] at hx
        obtain ⟨z, hz, hzd, hzl⟩ := S.base_def W hx.symm
        exact ⟨z, S.defIn.2 hz, S.domi hc hzd (.inl hzl)⟩
  · intro b B' p q x hB' hl hp hx hlq
    obtain ⟨B, hB, rfl⟩ := S.blk hB'
    obtain ⟨p0, h0, _, hinc⟩ := S.inc hB hp
    rcases (hinc q _).1 hx with hx | ⟨rfl, rfl, hat⟩
    · obtain ⟨z, hz, hzd⟩ := W.phiUse b B p0 q x hB (S.live_of hc hl) h0 hx (S.live_of hc hlq)
      refine ⟨z, S.defIn.2 hz, S.domi hc hzd (.inl fun hzl => ?_)⟩
      exact ((S.links.mem hzl).1 x b B hz hB).1 p0 h0 (mem_ops.2 ⟨q, hx⟩)
    · have hx := Phi.at_mem hat
      obtain ⟨hpl, hpe, r, hr, hr2⟩ := S.toPar
      have hparl : Live F par := by
        obtain ⟨p1, hp1⟩ := S.live
        have app : ∀ {a y c : Nat} {q p' : List Nat}, Dom.Path (Edge F) a y q → Dom.Path (Edge F) y c p' → Dom.Reachable (Edge F) a c := by
          intro a y c q p' h1 h2
          induction h1 with
          | single => exact ⟨p', h2⟩
          | cons e _ ih => obtain ⟨r, hr⟩ := ih h2; exact ⟨_, .cons e hr⟩
        exact app hp1 hr
      obtain ⟨z, hz, hzd⟩ := W.phiUse b B p0 par x hB (S.live_of hc hl) h0 hx hparl
      have hzl : z ∉ ls := fun hzl => ((S.links.mem hzl).1 x b B hz hB).1 p0 h0 (mem_ops.2 ⟨par, hx⟩)
      refine ⟨z, S.defIn.2 hz, S.domi hc ?_ (.inl hzl)⟩
      intro p1 hp1
      have app : ∀ {a y c : Nat} {q p' : List Nat}, Dom.Path (Edge F) a y q → Dom.Path (Edge F) y c (y :: p') → Dom.Path (Edge F) a c (q ++ p') := by
        intro a y c q p' h1 h2
        induction h1 with
        | single => exact h2
        | cons e _ ih => exact .cons e (ih h2)
      rcases List.mem_append.1 (hzd _ (app hp1 hr)) with h3 | h3
      · exact h3
      · exact absurd (hr2 z h3) hzl
  · intro b B' p hB' hl hp q v hv
    obtain ⟨B, hB, rfl⟩ := S.blk hB'
    obtain ⟨p0, h0, _, hinc⟩ := S.inc hB hp
    rcases (hinc q v).1 hv with hv | ⟨rfl, rfl, hat⟩
    · have he := W.phiPred b B p0 hB (S.live_of hc hl) h0 q v hv
      by_cases hq : q = h
      · exfalso
        subst hq
        have hne : B.phis ≠ [] := fun e => by rw [e] at h0; simp at h0
        rcases (matchEqual_edges S.head).2.2 b he with rfl | rfl
        · exact hne (S.noPhi (k1, b) (by simp) B hB)
        · have L := S.links
          cases L with
          | stop => exact S.ne rfl
          | link _ _ _ => exact hne (S.pure b (by simp) B hB).1
      · exact (S.edge_ne hq).2 he
    · exact (S.edge_h hc).2 (.inl rfl)
  · intro b B' p q hB' hl hp he hlq
    obtain ⟨B, hB, rfl⟩ := S.blk hB'
    obtain ⟨p0, h0, _, hinc⟩ := S.inc hB hp
    by_cases hq : q = h
    · subst hq
      rcases (S.edge_h hc).1 he with rfl | ⟨e, hem, rfl⟩
      · obtain ⟨⟨v, hv⟩, _⟩ := S.phis B hB p0 h0
        exact ⟨v, (hinc _ _).2 (.inr ⟨rfl, rfl, hv⟩)⟩
      · rw [S.noPhi e hem B hB] at h0; simp at h0
    · obtain ⟨v, hv⟩ := W.phiAll b B p0 q hB (S.live_of hc hl) h0 ((S.edge_ne hq).1 he) (S.live_of hc hlq)
      exact ⟨v, (hinc _ _).2 (.inl hv)⟩
  · intro b B' p p' q v hB' hl hp hp' hv
    obtain ⟨B, hB, rfl⟩ := S.blk hB'
    obtain ⟨p0, h0, _, hinc⟩ := S.inc hB hp
    obtain ⟨p1, h1, _, hinc1⟩ := S.inc hB hp'
    rcases (hinc q v).1 hv with hv | ⟨rfl, rfl, hat⟩
    · obtain ⟨w, hw⟩ := W.phiDead b B p0 p1 q v hB (S.live_of hc hl) h0 h1 hv
      exact ⟨w, (hinc1 _ _).2 (.inl hw)⟩
    · obtain ⟨⟨w, hw⟩, _⟩ := S.phis B hB p1 h1
      exact ⟨w, (hinc1 _ _).2 (.inr ⟨rfl, rfl, hw⟩)⟩

end SwStep
end
end Cmmc.SSA
