import Verif.SSA.Sem
/-!
# Editing functions: helpers of cmmc/Transforms/Util/BlockUtil.cpp, and when an edit refines
-/
namespace Cmmc.SSA

section
variable {Op C : Type}

/-- overwrite a block -/
def Func.set (F : Func Op C) (b : Nat) (B : Block Op C) : Func Op C := { F with blk := fun x => if x = b then some B else F.blk x }

/-- rewrite the phis at the head of a block -/
def Func.mapPhis (F : Func Op C) (b : Nat) (f : List (Phi C) → List (Phi C)) : Func Op C :=
  match F.blk b with
  | none => F
  | some B => F.set b { B with phis := f B.phis }

/-- `removeSource` (Instruction.cpp:917-926) -/
def Phi.removeSource (p : Phi C) (src : Nat) : Phi C := { p with inc := p.inc.filter (fun e => e.1 ≠ src) }

/-- `incomings().count(src)` -/
def Phi.has (p : Phi C) (src : Nat) : Bool := p.inc.any (fun e => e.1 == src)

/-- `addIncoming` (Instruction.cpp:846-850) -/
def Phi.addIncoming (p : Phi C) (src : Nat) (v : Opd C) : Phi C := { p with inc := p.inc ++ [(src, v)] }

/-- `replaceSource` (Instruction.cpp:910-916) -/
def Phi.replaceSource (p : Phi C) (o n : Nat) : Phi C := { p with inc := p.inc.map (fun e => if e.1 = o then (n, e.2) else e) }

/-- the loop of `removePhi(source, target)` over the phis of the target (BlockUtil.cpp:228-240): it stops at the first phi without the source -/
def removePhis (src : Nat) : List (Phi C) → List (Phi C)
  | [] => []
  | p :: ps => if p.has src then p.removeSource src :: removePhis src ps else p :: ps

/-- `removePhi(source, target)` (BlockUtil.cpp:228-240) -/
def Func.removePhi (F : Func Op C) (src tgt : Nat) : Func Op C := F.mapPhis tgt (removePhis src)

/-- `copyTarget(target, oldSource, newSource)` (BlockUtil.cpp:219-227); a phi without `oldSource` makes `at` throw and is left alone here -/
def copyPhis (o n : Nat) (ps : List (Phi C)) : List (Phi C) :=
  ps.map fun p => match p.at o with | some v => p.addIncoming n v | none => p
def Func.copyTarget (F : Func Op C) (tgt o n : Nat) : Func Op C := F.mapPhis tgt (copyPhis o n)

/-- two phi lists give the same values on entry from `b` -/
def SamePhis (b : Nat) (ps qs : List (Phi C)) : Prop := List.Forall₂ (fun p q => p.id = q.id ∧ p.at b = q.at b) ps qs

theorem SamePhis.refl (b : Nat) (ps : List (Phi C)) : SamePhis b ps ps := by
  unfold SamePhis
  induction ps with
  | nil => exact .nil
  | cons p ps ih => exact .cons ⟨rfl, rfl⟩ ih

theorem SamePhis.trans {b : Nat} {ps qs rs : List (Phi C)} (h : SamePhis b ps qs) (h' : SamePhis b qs rs) : SamePhis b ps rs := by
  unfold SamePhis at *
  induction h generalizing rs with
  | nil => cases h'; exact .nil
  | cons h _ ih =>
    cases h' with
    | cons h1 h2 => exact .cons ⟨h.1.trans h1.1, h.2.trans h1.2⟩ (ih h2)

theorem Phi.at_removeSource {p : Phi C} {src b : Nat} (h : b ≠ src) : (p.removeSource src).at b = p.at b := by
  unfold Phi.at Phi.removeSource
  rw [List.find?_filter]
  congr 1
  have : (fun a : Nat × Opd C => decide (decide (a.1 ≠ src) = true ∧ (a.1 == b) = true)) = (fun e => e.1 == b) := by
    funext a
    by_cases hb : a.1 = b
    · have : a.1 ≠ src := by rw [hb]; exact h
      simp [hb, h]
    · simp [hb]
  rw [this]

theorem samePhis_remove {b src : Nat} (h : b ≠ src) (ps : List (Phi C)) : SamePhis b ps (removePhis src ps) := by
  unfold SamePhis
  induction ps with
  | nil => exact .nil
  | cons p ps ih =>
    simp only [removePhis]
    split
    · exact .cons ⟨rfl, (Phi.at_removeSource h).symm⟩ ih
    · exact SamePhis.refl b _

theorem Phi.at_addIncoming {p : Phi C} {n b : Nat} {v : Opd C} (h : b ≠ n) : (p.addIncoming n v).at b = p.at b := by
  unfold Phi.at Phi.addIncoming
  rw [List.find?_append]
  have : ([(n, v)] : List (Nat × Opd C)).find? (fun e => e.1 == b) = none := by
    simp [Ne.symm h]
  rw [this]
  simp

theorem samePhis_copy {b o n : Nat} (h : b ≠ n) (ps : List (Phi C)) : SamePhis b ps (copyPhis o n ps) := by
  unfold SamePhis copyPhis
  induction ps with
  | nil => exact .nil
  | cons p ps ih =>
    rw [List.map_cons]
    refine .cons ?_ ih
    split
    · exact ⟨rfl, (Phi.at_addIncoming h).symm⟩
    · exact ⟨rfl, rfl⟩

@[simp] theorem Func.set_blk (F : Func Op C) (b : Nat) (B : Block Op C) (x : Nat) :
    (F.set b B).blk x = if x = b then some B else F.blk x := rfl
@[simp] theorem Func.set_entry (F : Func Op C) (b : Nat) (B : Block Op C) : (F.set b B).entry = F.entry := rfl
@[simp] theorem Func.set_order (F : Func Op C) (b : Nat) (B : Block Op C) : (F.set b B).order = F.order := rfl

theorem Func.mapPhis_blk (F : Func Op C) (b : Nat) (f : List (Phi C) → List (Phi C)) (x : Nat) :
    (F.mapPhis b f).blk x = (F.blk x).map (fun B => if x = b then { B with phis := f B.phis } else B) := by
  unfold Func.mapPhis
  cases h : F.blk b with
  | none =>
    by_cases hx : x = b
    · rw [hx, h]; rfl
    · simp only [if_neg hx]; cases F.blk x <;> rfl
  | some B =>
    rw [Func.set_blk]
    by_cases hx : x = b
    · rw [if_pos hx, hx, h]; simp
    · rw [if_neg hx]; simp only [if_neg hx]; cases F.blk x <;> rfl

theorem Func.mapPhis_entry (F : Func Op C) (b : Nat) (f : List (Phi C) → List (Phi C)) : (F.mapPhis b f).entry = F.entry := by
  unfold Func.mapPhis; split <;> rfl
theorem Func.mapPhis_order (F : Func Op C) (b : Nat) (f : List (Phi C) → List (Phi C)) : (F.mapPhis b f).order = F.order := by
  unfold Func.mapPhis; split <;> rfl
end

section
variable {L : Lang}

theorem enterPhis_congr {pred : Option Nat} {old : Env L} {ps qs : List (Phi L.C)}
    (h : match pred with | none => ps.length = qs.length | some b => SamePhis b ps qs) (env : Env L) :
    enterPhis L pred old ps env = enterPhis L pred old qs env := by
  cases pred with
  | none =>
    cases ps with
    | nil => cases qs with
      | nil => rfl
      | cons q qs => simp at h
    | cons p ps => cases qs with
      | nil => simp at h
      | cons q qs => simp [enterPhis, phiVal]
  | some b =>
    simp only at h
    unfold SamePhis at h
    induction h generalizing env with
    | nil => rfl
    | cons h _ ih =>
      simp only [enterPhis, phiVal]
      rw [h.1, h.2]
      split
      · rfl
      · exact ih _

theorem SamePhis.length {C : Type} {b : Nat} {ps qs : List (Phi C)} (h : SamePhis b ps qs) : ps.length = qs.length := by
  unfold SamePhis at h
  induction h with
  | nil => rfl
  | cons _ _ ih => simp [ih]

/-- blocks with the same code up to phi entries that do not matter on entry from `s.pred` -/
theorem stepBlk_congr {B B' : L.B} {s : St L}
    (hp : match s.pred with | none => B.phis.length = B'.phis.length | some b => SamePhis b B.phis B'.phis)
    (hb : B.body = B'.body) (ht : ∀ env, evalTerm L env B.term = evalTerm L env B'.term) :
    stepBlk L B s = stepBlk L B' s := by
  unfold stepBlk
  rw [enterPhis_congr hp, hb]
  split
  · rfl
  · split
    · rfl
    · rfl
    · rw [ht]

/-- on entry from an edge of `F` -/
def OnEdge (F : L.F) (s : St L) : Prop :=
  match s.pred with
  | none => s.cur = F.entry
  | some p => ∃ B, F.blk p = some B ∧ s.cur ∈ B.term.targets

theorem onEdge_step {F : L.F} {s s' : St L} (h : step L F s = .inl s') : OnEdge F s' := by
  obtain ⟨hp, B, hB, ht⟩ := step_target h
  unfold OnEdge
  rw [hp]
  exact ⟨B, hB, ht⟩

/-- if `G` does the same as `F` on every edge of `G` (or `F` is undefined), `G` refines `F` -/
theorem refines_edges {F G : L.F} (hentry : F.entry = G.entry)
    (h : ∀ s, OnEdge G s → step L F s = .inr .ub ∨ step L G s = step L F s) : Refines L F G := by
  refine refines_lockstep (OnEdge G) hentry (fun m => by unfold OnEdge start; exact hentry) ?_
  intro s hs
  rcases h s hs with h | h
  · exact .inl h
  · exact .inr ⟨h, fun s' hs' => onEdge_step (h ▸ hs')⟩

/-- only the terminator of `b` differs -/
theorem step_term {F G : L.F} {s : St L} {B B' : L.B} (hF : F.blk s.cur = some B) (hG : G.blk s.cur = some B')
    (hp : match s.pred with | none => B.phis.length = B'.phis.length | some b => SamePhis b B.phis B'.phis)
    (hb : B.body = B'.body)
    (ht : ∀ env, evalTerm L env B.term = .ub ∨ evalTerm L env B.term = evalTerm L env B'.term) :
    step L F s = .inr .ub ∨ step L G s = step L F s := by
  unfold step
  rw [hF, hG]
  dsimp only
  unfold stepBlk
  rw [← enterPhis_congr hp, ← hb]
  split
  · exact .inl rfl
  · split
    · exact .inl rfl
    · exact .inr rfl
    · rename_i env m es _
      rcases ht env with h | h
      · rw [h]; exact .inl rfl
      · rw [← h]; exact .inr rfl

/-! ## same path, different registers -/

/-- results of straight-line code that differ in the registers only -/
def BodyRel (Q : Env L → Env L → Prop) : BodyRes L → BodyRes L → Prop
  | .ub, _ => True
  | .halt es h, r => r = .halt es h
  | .ok e m es, r => ∃ e', r = .ok e' m es ∧ Q e e'

/-- results of a block that differ in the registers only -/
def StepRel (Q : Option Nat → Nat → Env L → Env L → Prop) : St L ⊕ Beh L → St L ⊕ Beh L → Prop
  | .inr .ub, _ => True
  | .inr b, r => r = .inr b
  | .inl s, r => ∃ e, r = .inl { s with env := e } ∧ Q s.pred s.cur s.env e

theorem refines_rel {F G : L.F} (Q : Option Nat → Nat → Env L → Env L → Prop) (hentry : F.entry = G.entry)
    (h0 : Q none F.entry (fun _ => none) (fun _ => none))
    (h : ∀ s e, Q s.pred s.cur s.env e → StepRel Q (step L F s) (step L G { s with env := e })) : Refines L F G := by
  refine Simulation.refines (R := fun s t => ∃ e, t = { s with env := e } ∧ Q s.pred s.cur s.env e) ?_ (fun m => ⟨fun _ => none, by unfold start; rw [hentry], h0⟩)
  rintro s _ ⟨e, rfl, hQ⟩
  refine ⟨rfl, ?_⟩
  have := h s e hQ
  cases hs : step L F s with
  | inl s' =>
    rw [hs] at this
    obtain ⟨e', he', hQ'⟩ := this
    exact .inr (.inr ⟨0, 0, s', _, by rw [run_one, hs], by rw [run_one, he'], e', rfl, hQ'⟩)
  | inr b =>
    rw [hs] at this
    cases b with
    | ub => exact .inl ⟨1, by rw [run_one, hs]⟩
    | ret v m tr => exact .inr (.inl ⟨1, 1, _, by rw [run_one, hs], by rw [run_one]; exact this⟩)
    | halt h tr => exact .inr (.inl ⟨1, 1, _, by rw [run_one, hs], by rw [run_one]; exact this⟩)

/-- a block against a block: related registers after the phis, after the body, and the same terminator result -/
theorem stepBlk_rel {Q : Option Nat → Nat → Env L → Env L → Prop} {Q1 Q2 : Env L → Env L → Prop} {B B' : L.B} {s : St L} {e : Env L}
    (hphi : ∀ r, enterPhis L s.pred s.env B.phis s.env = some r → ∃ r', enterPhis L s.pred e B'.phis e = some r' ∧ Q1 r r')
    (hbody : ∀ r r' m es, Q1 r r' → BodyRel Q2 (execBody L B.body r m es) (execBody L B'.body r' m es))
    (hterm : ∀ r r', Q2 r r' → evalTerm L r B.term = .ub ∨ evalTerm L r' B'.term = evalTerm L r B.term)
    (hnext : ∀ r r' b, Q2 r r' → b ∈ B.term.targets → Q (some s.cur) b r r') :
    StepRel Q (stepBlk L B s) (stepBlk L B' { s with env := e }) := by
  unfold stepBlk
  cases h1 : enterPhis L s.pred s.env B.phis s.env with
  | none => trivial
  | some r =>
    obtain ⟨r', e1, q1⟩ := hphi r h1
    dsimp only
    rw [e1]
    dsimp only
    have hb := hbody r r' s.m s.tr q1
    cases h2 : execBody L B.body r s.m s.tr with
    | ub => trivial
    | halt es h =>
      rw [h2] at hb
      rw [hb]
      rfl
    | ok r2 m es =>
      rw [h2] at hb
      obtain ⟨r2', e2, q2⟩ := hb
      rw [e2]
      dsimp only
      rcases hterm r2 r2' q2 with ht | ht
      · rw [ht]; trivial
      · rw [ht]
        cases h3 : evalTerm L r2 B.term with
        | ub => trivial
        | ret v => rfl
        | goto b => exact ⟨r2', rfl, hnext r2 r2' b q2 (evalTerm_targets h3)⟩

end
end Cmmc.SSA
