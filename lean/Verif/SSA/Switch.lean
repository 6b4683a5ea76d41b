import Verif.SSA.LiveEqns
import Verif.SSA.Redirect
import Verif.SSA.PhiElim
import Mathlib.Data.List.Sort
/-!
# Branch2Switch (cmmc/Transforms/ControlFlow/Branch2Switch.cpp:33-141): model

A chain of blocks that compare one value with different integers becomes a `switch` in the first of them.
-/
namespace Cmmc.SSA

/-- what the pass knows about opcodes and constants: `cmp` is `some true` for `ICmpEqual`, `some false` for `ICmpNotEqual`; `int` the value
of a `ConstantInteger`. `dense` is the profitability test of l.112-117 (in floating point): any function of the number of cases and the
distance between the largest and the smallest. -/
structure B2W (Op C : Type) where
  cmp : Op → Option Bool
  int : C → Option Int
  dense : Nat → Int → Bool

section
variable {Op C : Type}

/-- the instruction a `Value*` is -/
def Func.instOf (F : Func Op C) (x : Nat) : Option (Inst Op C) := F.blocks.findSome? (fun B => B.body.find? (fun i => i.id == x))

/-- `icmp(cmp, any(base), int_(key))` with `cmp` one of the two comparisons (l.40-52, 104-107) -/
def B2W.matchCmp (P : B2W Op C) (F : Func Op C) : Opd C → Option (Bool × Opd C × Int)
  | .cst _ => none
  | .inst x =>
    match F.instOf x with
    | some i =>
      match P.cmp i.op, i.args with
      | some e, [a, .cst c] => (P.int c).map (fun k => (e, a, k))
      | _, _ => none
    | none => none

/-- `matchICmpEqual` (l.34-54): the value compared, the key, where to go if equal and otherwise -/
def B2W.matchEqual (P : B2W Op C) (F : Func Op C) (b : Nat) : Option (Opd C × Int × Nat × Nat) :=
  match F.blk b with
  | none => none
  | some B =>
    match B.term with
    | .cbr c t f => (P.matchCmp F c).map (fun r => (r.2.1, r.2.2, if r.1 then t else f, if r.1 then f else t))
    | _ => none

/-- no instruction other than the terminator of `b` uses an instruction of `b` (l.60-71) -/
def Func.ownTermOnly [DecidableEq C] (F : Func Op C) (b : Nat) : Bool :=
  match F.blk b with
  | none => false
  | some B => B.ids.all fun x => F.order.all fun c => match F.blk c with
    | none => true
    | some X => X.phis.all (fun p => decide (Opd.inst x ∉ p.ops)) && X.body.all (fun i => decide (Opd.inst x ∉ i.args)) && (decide (c = b) || decide (Opd.inst x ∉ X.term.args))

/-- result of `matchCaseChain` -/
structure CaseChain where
  cases : List (Int × Nat)
  dflt : Nat
  parent : Nat
  visited : List Nat

/-- `matchCaseChain` (l.55-88); `cs` is the map in order of insertion. `none`: out of fuel. -/
def B2W.caseChain [DecidableEq C] (P : B2W Op C) (F : Func Op C) (base : Opd C) : Nat → Nat → Bool → List (Int × Nat) → Nat → List Nat → Option CaseChain
  | 0, _, _, _, _, _ => none
  | n + 1, b, head, cs, parent, vis =>
    if !head && !F.ownTermOnly b then some ⟨cs, b, parent, b :: vis⟩
    else
      match P.matchEqual F b with
      | some (a, k, t, fb) => if a = base ∧ k ∉ cs.map Prod.fst then B2W.caseChain P F base n fb false (cs ++ [(k, t)]) b (b :: vis) else some ⟨cs, b, parent, b :: vis⟩
      | none => some ⟨cs, b, parent, b :: vis⟩

/-- `std::map` enumerates its keys in increasing order -/
def sortCases (cs : List (Int × Nat)) : List (Int × Nat) := cs.insertionSort (fun a b => a.1 ≤ b.1)

/-- l.110-126: is it worthwhile, and do the case targets have no phis -/
def B2W.worth (P : B2W Op C) (F : Func Op C) (cs : List (Int × Nat)) : Bool :=
  match sortCases cs, (sortCases cs).getLast? with
  | a :: _, some z => decide (4 ≤ cs.length) && P.dense cs.length (z.1 - a.1) && cs.all (fun e => match F.blk e.2 with | some B => B.phis.isEmpty | none => true)
  | _, _ => false

/-- l.127-136: the `switch`. `none`: `incomings().at(parent)` throws or the assertion of `addIncoming` fails -/
def switchTo (F : Func Op C) (h : Nat) (base : Opd C) (cs : List (Int × Nat)) (d par : Nat) : Option (Func Op C) :=
  match F.blk d with
  | none => none
  | some D =>
    if D.phis.all (fun p => (p.at par).isSome && (p.at h).isNone) then
      some { F with blk := fun x => (F.blk x).map (fun X =>
        ⟨if x = d then copyPhis par h X.phis else X.phis, X.body, if x = h then .sw base d (sortCases cs) else X.term⟩) }
    else none

/-- the loop body of `run` (l.97-138) for one block, with the set of visited blocks -/
def B2W.switchAt [DecidableEq C] (P : B2W Op C) (st : Func Op C × List Nat) (h : Nat) : Option (Func Op C × List Nat) :=
  if h ∈ st.2 then some st
  else
    match st.1.blk h with
    | none => some st
    | some B =>
      match B.term with
      | .cbr c _ _ =>
        match P.matchCmp st.1 c with
        | none => some st
        | some (_, base, _) =>
          match P.caseChain st.1 base (st.1.order.length + 2) h true [] h st.2 with
          | none => none
          | some r =>
            if P.worth st.1 r.cases then (switchTo st.1 h base r.cases r.dflt r.parent).map (fun G => (G, r.visited))
            else some (st.1, r.visited)
      | _ => some st

/-- `run` (l.91-140); `blocks` is `dom.blocks()`, `native`: the target has a switch instruction -/
def branch2Switch [DecidableEq C] (P : B2W Op C) (native : Bool) (blocks : List Nat) (F : Func Op C) : Option (Func Op C) :=
  if native then (blocks.foldlM P.switchAt (F, [])).map Prod.fst else some F

/-! ## the chain -/

/-- every use of an instruction of `b` is by the terminator of `b` -/
def OwnTerm (F : Func Op C) (b : Nat) : Prop :=
  ∀ x c X, DefIn F x b → F.blk c = some X → (∀ p ∈ X.phis, Opd.inst x ∉ p.ops) ∧ (∀ i ∈ X.body, Opd.inst x ∉ i.args) ∧ (Opd.inst x ∈ X.term.args → c = b)

theorem ownTerm_of [DecidableEq C] {F : Func Op C} (hl : F.Listed) {b : Nat} (h : F.ownTermOnly b = true) : OwnTerm F b := by
  rintro x c X ⟨B, hB, hx⟩ hX
  unfold Func.ownTermOnly at h
  rw [hB] at h
  simp only [List.all_eq_true] at h
  have := h x hx c (hl c X hX)
  rw [hX] at this
  simp only [Bool.and_eq_true, List.all_eq_true, decide_eq_true_eq, Bool.or_eq_true] at this
  exact ⟨this.1.1, this.1.2, fun hx => by rcases this.2 with h | h; exacts [h, absurd hx h]⟩

/-- the blocks `ls` starting at `b` compare `base` with the keys of `cs` in turn and end in `d`, coming from `par` (`par0` comes before `b`) -/
inductive Links (P : B2W Op C) (F : Func Op C) (base : Opd C) : Nat → Nat → List Nat → List (Int × Nat) → Nat → Nat → Prop
  | stop (b par : Nat) : Links P F base b par [] [] b par
  | link {b par0 k t fb ls cs d par} : OwnTerm F b → P.matchEqual F b = some (base, k, t, fb) → Links P F base fb b ls cs d par → Links P F base b par0 (b :: ls) ((k, t) :: cs) d par

theorem caseChain_links [DecidableEq C] {P : B2W Op C} {F : Func Op C} (hl : F.Listed) {base : Opd C} : ∀ {n b : Nat} {cs : List (Int × Nat)} {par0 : Nat} {vis : List Nat} {r : CaseChain},
    P.caseChain F base n b false cs par0 vis = some r → (cs.map Prod.fst).Nodup →
    ∃ ls cs', Links P F base b par0 ls cs' r.dflt r.parent ∧ r.cases = cs ++ cs' ∧ (r.cases.map Prod.fst).Nodup ∧ r.visited = r.dflt :: (ls.reverse ++ vis) := by
  intro n
  induction n with
  | zero => intro b cs par0 vis r h; simp [B2W.caseChain] at h
  | succ n ih =>
    intro b cs par0 vis r h hnd
    unfold B2W.caseChain at h
    split at h
    · simp only [Option.some.injEq] at h; subst h
      exact ⟨[], [], .stop _ _, by simp, hnd, by simp⟩
    · rename_i ho
      split at h
      · rename_i a k t fb hm
        split at h
        · rename_i hc
          obtain ⟨ls, cs', h1, h2, h3, h4⟩ := ih h (by rw [List.map_append, List.nodup_append]; exact ⟨hnd, by simp, by rintro x hx y hy rfl; simp at hy; exact hc.2 (hy ▸ hx)⟩)
          refine ⟨b :: ls, (k, t) :: cs', .link (ownTerm_of hl (by simpa using ho)) (by rw [hm, hc.1]) h1, by rw [h2]; simp, h3, by rw [h4]; simp⟩
        · simp only [Option.some.injEq] at h; subst h
          exact ⟨[], [], .stop _ _, by simp, hnd, by simp⟩
      · simp only [Option.some.injEq] at h; subst h
        exact ⟨[], [], .stop _ _, by simp, hnd, by simp⟩

/-- the chain is found within the fuel: every link adds a key, and a block has one key -/
theorem caseChain_total [DecidableEq C] {P : B2W Op C} {F : Func Op C} (hl : F.Listed) {base : Opd C} : ∀ {n b : Nat} {head : Bool} {cs : List (Int × Nat)} {par : Nat} {vis : List Nat},
    (cs.map Prod.fst).Nodup → (∀ k ∈ cs.map Prod.fst, k ∈ F.order.filterMap (fun b => (P.matchEqual F b).map (fun r => r.2.1))) → F.order.length + 2 ≤ n + cs.length → cs.length ≤ F.order.length →
    ∃ r, P.caseChain F base n b head cs par vis = some r := by
  intro n
  induction n with
  | zero => intro b head cs par vis _ _ h1 h2; omega
  | succ n ih =>
    intro b head cs par vis hnd hk h1 h2
    unfold B2W.caseChain
    split
    · exact ⟨_, rfl⟩
    · split
      · rename_i a k t fb hm
        split
        · rename_i hc
          have hnd' : ((cs ++ [(k, t)]).map Prod.fst).Nodup := by rw [List.map_append, List.nodup_append]; exact ⟨hnd, by simp, by rintro x hx y hy rfl; simp at hy; exact hc.2 (hy ▸ hx)⟩
          have hb : b ∈ F.order := by
            unfold B2W.matchEqual at hm
            split at hm
            · cases hm
            · rename_i B hB; exact hl b B hB
          have hk' : ∀ k' ∈ (cs ++ [(k, t)]).map Prod.fst, k' ∈ F.order.filterMap (fun b => (P.matchEqual F b).map (fun r => r.2.1)) := by
            intro k' h
            rw [List.map_append, List.mem_append] at h
            rcases h with h | h
            · exact hk k' h
            · simp only [List.map_cons, List.map_nil, List.mem_singleton] at h
              rw [h]
              exact List.mem_filterMap.2 ⟨b, hb, by rw [hm]; rfl⟩
          refine ih hnd' hk' (by simp; omega) ?_
          have := (List.subperm_of_subset hnd' hk').length_le
          rw [List.length_map] at this
          exact this.trans (List.length_filterMap_le _ _)
        · exact ⟨_, rfl⟩
      · exact ⟨_, rfl⟩

theorem sortCases_perm (cs : List (Int × Nat)) : (sortCases cs).Perm cs := List.perm_insertionSort _ _

theorem instOf_some {F : Func Op C} {x : Nat} {i : Inst Op C} (h : F.instOf x = some i) : i.id = x ∧ ∃ d D, F.blk d = some D ∧ i ∈ D.body := by
  unfold Func.instOf at h
  obtain ⟨B, hB, h2⟩ := List.exists_of_findSome?_eq_some h
  obtain ⟨d, _, hd⟩ := List.mem_filterMap.1 hB
  exact ⟨by simpa using List.find?_some h2, d, B, hd, List.mem_of_find?_eq_some h2⟩

/-- a match: the terminator branches on a comparison with a constant -/
theorem matchEqual_some {P : B2W Op C} {F : Func Op C} {b : Nat} {base : Opd C} {k : Int} {t fb : Nat} (h : P.matchEqual F b = some (base, k, t, fb)) :
    ∃ B i e c d D, F.blk b = some B ∧ B.term = .cbr (.inst i.id) (if e then t else fb) (if e then fb else t) ∧ F.blk d = some D ∧ i ∈ D.body ∧ P.cmp i.op = some e ∧ i.args = [base, .cst c] ∧ P.int c = some k := by
  unfold B2W.matchEqual at h
  split at h
  · cases h
  · rename_i B hB
    split at h
    · rename_i c t' f' ht
      obtain ⟨⟨e, a, k'⟩, hr, h2⟩ := Option.map_eq_some_iff.1 h
      simp only [Prod.mk.injEq] at h2
      obtain ⟨rfl, rfl, h3, h4⟩ := h2
      unfold B2W.matchCmp at hr
      split at hr
      · cases hr
      · rename_i x
        split at hr
        · rename_i i hi
          obtain ⟨rfl, d, D, hD, him⟩ := instOf_some hi
          split at hr
          · rename_i e' a' c' he hargs
            obtain ⟨k2, hk2, h5⟩ := Option.map_eq_some_iff.1 hr
            simp only [Prod.mk.injEq] at h5
            obtain ⟨rfl, rfl, rfl⟩ := h5
            refine ⟨B, i, e', c', d, D, hB, ?_, hD, him, he, hargs, hk2⟩
            rw [ht]
            cases e' <;> simp_all
          · cases hr
        · cases hr
    · cases h

end
end Cmmc.SSA
