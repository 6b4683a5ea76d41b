import Verif.SSA.ScevInv
import Verif.SSA.Gvn
import Verif.SSA.PhiElim
/-!
# C88: SCEVAnalysis (cmmc/Analysis/SCEVAnalysis.cpp:221-330) with LoopAnalysis (cmmc/Analysis/LoopAnalysis.cpp:24-112)
-/
namespace Cmmc.SSA

/-- comparison predicates that LoopAnalysis looks at -/
inductive ICmp | ne | slt | sgt | other
deriving DecidableEq

/-- opcodes that the analyses look at -/
structure LoopOps (L : Lang) extends Arith L where
  isDiv : L.Op → Bool
  /-- `ICmp` with its predicate -/
  cmp : L.Op → Option ICmp

/-- `Loop` (LoopAnalysis.hpp) -/
structure LoopInfo (C : Type) where
  header : Nat
  latch : Nat
  indvar : Nat
  next : Opd C
  initial : Opd C
  bound : Opd C
  step : Int

section
variable {L : Lang} (O : LoopOps L) (F : L.F)

/-- `int_(i)` (PatternMatch.hpp:118) -/
def LoopOps.lit : Opd L.C → Option Int
  | .cst c => (O.num c).map Prod.snd
  | .inst _ => none

/-- the two operands of an addition -/
def LoopOps.addArgs : Opd L.C → Option (Opd L.C × Opd L.C)
  | .inst y => match F.inst? y with
    | some j => if O.isAdd j.op then (match j.args with | [a, b] => some (a, b) | _ => none) else none
    | none => none
  | .cst _ => none

/-- `add(any(indvar), int_(step))` (LoopAnalysis.cpp:45): the pattern is commutative -/
def LoopOps.addAnyInt (o : Opd L.C) : Option (Opd L.C × Int) :=
  match O.addArgs F o with
  | some (a, b) => match O.lit b with
    | some z => some (a, z)
    | none => (O.lit a).map (fun z => (b, z))
  | none => none

/-- the block of an instruction -/
def Func.homeOf {Op C : Type} (F : Func Op C) (x : Nat) : Option Nat := F.order.find? (fun b => match F.blk b with | some B => decide (x ∈ B.ids) | none => false)

/-- the checks on the predicate (LoopAnalysis.cpp:78-104) -/
def LoopOps.cmpOk (c : ICmp) (initial bound : Opd L.C) (step : Int) : Bool :=
  match c with
  | .ne => match O.lit bound, O.lit initial with
    | some bv, some iv => decide ((bv - iv).tmod step = 0) && !(decide (step > 0) && decide (iv ≥ bv)) && !(decide (step < 0) && decide (iv ≤ bv))
    | _, _ => false
  | .slt => decide (0 < step)
  | .sgt => decide (step < 0)
  | .other => false

/-- the bound does not change in the loop (LoopAnalysis.cpp:63-67) -/
def boundOk {Op C : Type} (F : Func Op C) (t : Dom.TS) (header : Nat) : Opd C → Bool
  | .cst _ => true
  | .inst y => match F.homeOf y with
    | some h => decide (h ≠ header) && t.dominate h header
    | none => false

/-- one block (LoopAnalysis.cpp:29-106) -/
def LoopOps.loopAt (t : Dom.TS) (b : Nat) : Option (LoopInfo L.C) :=
  match F.blk b with
  | none => none
  | some B =>
    match B.term with
    | .cbr (.inst c) header _ =>
      match F.inst? c with
      | none => none
      | some cmp =>
        match O.cmp cmp.op, cmp.args with
        | some pr, [next, bound] =>
          match O.addAnyInt F next with
          | some (.inst iv, step) =>
            if step = 0 then none
            else if !t.dominate header b then none
            else
              match F.blk header with
              | none => none
              | some Hd =>
                match Hd.phi? iv with
                | none => none
                | some phi =>
                  if !boundOk F t header bound then none
                  else
                    match phi.inc.filter (fun e => e.1 != b) with
                    | [e] =>
                      if phi.at b = some next then
                        if O.cmpOk pr e.2 bound step then some ⟨header, b, iv, next, e.2, bound, step⟩ else none
                      else none
                    | _ => none
          | _ => none
        | _, _ => none
    | _ => none

/-- `LoopAnalysis::run` (LoopAnalysis.cpp:24-112) -/
def LoopOps.loops (t : Dom.TS) : List (LoopInfo L.C) := (domBlocks t).filterMap (O.loopAt F t)

/-- `mStorage`; `addSCEV` does not overwrite (SCEVAnalysis.cpp:30-36) -/
abbrev ScevTab := List (Nat × Scev)

def ScevTab.get (t : ScevTab) (x : Nat) : Option Scev := (t.find? (fun e => e.1 == x)).map Prod.snd

def ScevTab.put (t : ScevTab) (x : Nat) (s : Scev) : ScevTab := if (t.get x).isSome then t else (x, s) :: t

/-- `query` (SCEVAnalysis.cpp:37-48) -/
def LoopOps.query (t : ScevTab) : Opd L.C → Option Scev
  | .inst x => t.get x
  | .cst c => (O.num c).map (fun e => .const e.2)

/-- `add(exactly(indVar), capture(int_(i1), c1))` (SCEVAnalysis.cpp:247) -/
def LoopOps.stepOf (x : Nat) (next : Opd L.C) : Option Int :=
  match O.addArgs F next with
  | some (a, b) =>
    match (if a = .inst x then O.lit b else none) with
    | some z => some z
    | none => if b = .inst x then O.lit a else none
  | none => none

/-- `tryMatch` (SCEVAnalysis.cpp:245-260) -/
def LoopOps.tryMatch (loop : Option Nat) (t : ScevTab) (x : Nat) (initial next : Opd L.C) : Option Scev :=
  match O.stepOf F x next, O.query t initial with
  | some z, some s => some (.addRec loop [s, .const z])
  | _, _ => none

/-- one phi (SCEVAnalysis.cpp:237-265) -/
def LoopOps.bivPhi (loop : Option Nat) (t : ScevTab) (p : Phi L.C) : ScevTab :=
  match p.inc with
  | [e1, e2] =>
    match O.tryMatch F loop t p.id e1.2 e2.2 with
    | some s => t.put p.id s
    | none => match O.tryMatch F loop t p.id e2.2 e1.2 with
      | some s => t.put p.id s
      | none => t
  | _ => t

/-- `findLoop` (SCEVAnalysis.cpp:225-230) -/
def findLoop {C : Type} (ls : List (LoopInfo C)) (b : Nat) : Option Nat := ls.findIdx? (fun l => l.header == b)

/-- basic induction variables (SCEVAnalysis.cpp:233-270) -/
def LoopOps.bivs (ls : List (LoopInfo L.C)) (t : ScevTab) : ScevTab :=
  F.order.foldl (fun t b => match F.blk b with | some B => B.phis.foldl (O.bivPhi F (findLoop ls b)) t | none => t) t

/-- one instruction (SCEVAnalysis.cpp:275-322); C++ division truncates -/
def LoopOps.givInst (t : ScevTab) (i : Inst L.Op L.C) : ScevTab :=
  match i.args with
  | [a, b] =>
    if O.isAdd i.op then
      match O.query t a, O.query t b with
      | some s, some s' => match foldAdd s s' with | some r => t.put i.id r | none => t
      | _, _ => t
    else if O.isMul i.op then
      match O.query t a, O.query t b with
      | some s, some s' => match foldMul s s' with | some r => t.put i.id r | none => t
      | _, _ => t
    else if O.isDiv i.op then
      match O.query t a, O.lit b with
      | some (.addRec (some l) [.const z0, .const z1]), some d =>
        if d ≠ 0 ∧ z1.tmod d = 0 then t.put i.id (.addRec (some l) [.const (z0.tdiv d), .const (z1.tdiv d)]) else t
      | _, _ => t
    else t
  | _ => t

/-- general induction variables (SCEVAnalysis.cpp:272-325) -/
def LoopOps.givs (t : ScevTab) : ScevTab :=
  F.order.foldl (fun t b => match F.blk b with | some B => B.body.foldl O.givInst t | none => t) t

/-- `SCEVAnalysis::run` -/
def LoopOps.scev (ls : List (LoopInfo L.C)) : ScevTab := O.givs F (O.bivs F ls [])

end

/-! ## the loops -/
section
variable {L : Lang} {O : LoopOps L} {F : L.F}

theorem Func.homeOf_spec {Op C : Type} {F : Func Op C} {x b : Nat} (h : F.homeOf x = some b) : DefIn F x b := by
  have := List.find?_some h
  split at this
  · rename_i B hB; exact ⟨B, hB, of_decide_eq_true this⟩
  · simp at this

theorem addArgs_spec {o a b : Opd L.C} (h : O.addArgs F o = some (a, b)) : ∃ j d D, o = .inst j.id ∧ F.blk d = some D ∧ j ∈ D.body ∧ O.isAdd j.op = true ∧ j.args = [a, b] := by
  unfold LoopOps.addArgs at h
  split at h
  · split at h
    · rename_i y j hj
      split at h
      · rename_i hop
        split at h
        · rename_i ha
          simp only [Option.some.injEq, Prod.mk.injEq] at h
          obtain ⟨d, D, h1, h2, h3⟩ := inst?_spec hj
          exact ⟨j, d, D, by rw [h3], h1, h2, hop, by rw [ha, h.1, h.2]⟩
        · simp at h
      · simp at h
    · simp at h
  · simp at h

theorem lit_spec {o : Opd L.C} {z : Int} (h : O.lit o = some z) : ∃ c w, o = .cst c ∧ O.num c = some (w, z) := by
  cases o with
  | inst _ => simp [LoopOps.lit] at h
  | cst c =>
    simp only [LoopOps.lit, Option.map_eq_some_iff] at h
    obtain ⟨⟨w, z'⟩, h1, h2⟩ := h
    dsimp only at h2
    subst h2
    exact ⟨c, w, rfl, h1⟩

/-- what LoopAnalysis guarantees of a loop -/
structure IsLoop (F : L.F) (l : LoopInfo L.C) : Prop where
  live : Live F l.latch
  edge : Edge F l.latch l.header
  dom : Domi F l.header l.latch

theorem loopAt_isLoop {t : Dom.TS} (ht : ∀ a b, t.dominate a b = true → Live F b ∧ Domi F a b) {b : Nat} {l : LoopInfo L.C} (h : O.loopAt F t b = some l) : IsLoop F l := by
  unfold LoopOps.loopAt at h
  split at h
  · simp at h
  · rename_i B hB
    split at h
    · rename_i c hd fl hterm
      split at h
      · simp at h
      · split at h
        · split at h
          · split at h
            · simp at h
            · split at h
              · simp at h
              · rename_i hdom
                split at h
                · simp at h
                · split at h
                  · simp at h
                  · split at h
                    · simp at h
                    · split at h
                      · split at h
                        · split at h
                          · simp only [Option.some.injEq] at h
                            subst h
                            have hdom : t.dominate hd b = true := by simpa using hdom
                            exact ⟨(ht _ _ hdom).1, ⟨B, hB, by simp [hterm, Term.targets]⟩, (ht _ _ hdom).2⟩
                          · simp at h
                        · simp at h
                      · simp at h
          · simp at h
        · simp at h
    · simp at h

theorem loops_isLoop {t : Dom.TS} (ht : ∀ a b, t.dominate a b = true → Live F b ∧ Domi F a b) : ∀ l ∈ O.loops F t, IsLoop F l := by
  intro l hl
  obtain ⟨b, _, hb⟩ := List.mem_filterMap.mp hl
  exact loopAt_isLoop ht hb

/-- a live block other than the entry has a live predecessor that it does not dominate -/
theorem entering {Op C : Type} {F : Func Op C} {b : Nat} (hb : Live F b) (hne : b ≠ F.entry) : ∃ q, Live F q ∧ Edge F q b ∧ ¬ Domi F b q := by
  obtain ⟨p, hp⟩ := hb
  obtain ⟨p1, hp1, _, hc⟩ := first_visit hp (path_end hp)
  rcases path_unsnoc hp1 with ⟨h, _⟩ | ⟨q, p', h1, h2, h3⟩
  · exact absurd h.symm hne
  · refine ⟨q, ⟨p', h1⟩, h2, fun hd => ?_⟩
    have := hd p' h1
    rw [h3, List.count_append] at hc
    have h4 := List.count_pos_iff.mpr this
    simp at hc
    omega

/-- in a phi of a header with two entries, one of which is computed from the phi itself, this one belongs to the latch -/
theorem latch_entry (W : LiveWf F) {H Lt : Nat} (hLt : Live F Lt) (he : Edge F Lt H) (hd : Domi F H Lt) {B : L.B} (hB : F.blk H = some B) {φ : Phi L.C} (hφ : φ ∈ B.phis)
    {p1 p2 : Nat} {o : Opd L.C} {j : Inst L.Op L.C} {d : Nat} {D : L.B} (hD : F.blk d = some D) (hj : j ∈ D.body) (hinc : ∀ q v, (q, v) ∈ φ.inc ↔ ((q, v) = (p1, o) ∨ (q, v) = (p2, .inst j.id)))
    (harg : Opd.inst φ.id ∈ j.args) : p2 = Lt ∧ p1 ≠ Lt := by
  have hH : Live F H := hd.live hLt
  have hne : H ≠ F.entry := by
    rintro rfl
    rw [W.entryPhis B hB] at hφ
    simp at hφ
  obtain ⟨q, hq, heq, hnd⟩ := entering hH hne
  have hp1 : q = p1 := by
    obtain ⟨v, hv⟩ := W.phiAll H B φ q hB hH hφ heq hq
    rcases (hinc q v).mp hv with h | h
    · simp only [Prod.mk.injEq] at h; exact h.1
    · simp only [Prod.mk.injEq] at h
      exfalso
      obtain ⟨h', h1, h2⟩ := W.phiUse H B φ q j.id hB hH hφ (by rw [← h.2]; exact hv) hq
      have hdh : h' = d := W.home h1 ⟨D, hD, List.mem_append_right _ (List.mem_map.2 ⟨j, hj, rfl⟩)⟩
      subst hdh
      have h3 := W.useDom hD (h2.live hq) (.inl ⟨j, hj, harg⟩) ⟨B, hB, List.mem_append_left _ (List.mem_map.2 ⟨φ, hφ, rfl⟩)⟩
      exact hnd (h3.trans h2)
  have hp1' : p1 ≠ Lt := by
    rintro rfl
    rw [hp1] at hnd
    exact hnd hd
  obtain ⟨v, hv⟩ := W.phiAll H B φ Lt hB hH hφ he hLt
  rcases (hinc Lt v).mp hv with h | h
  · simp only [Prod.mk.injEq] at h; exact absurd h.1.symm hp1'
  · simp only [Prod.mk.injEq] at h; exact ⟨h.1.symm, hp1'⟩

/-! ## the table -/

/-- every entry of the table is backed by a derivation -/
def GoodTab (O : LoopOps L) (F : L.F) (ls : List (LoopInfo L.C)) (t : ScevTab) : Prop := ∀ x s, t.get x = some s →
  (∀ z, s.asConst = some z → ∀ H Lt, ∃ f, Ev O.toArith F H Lt false (.inst x) f ∧ ∀ n, f n = z) ∧
  (∀ l cs, s.flat = some (l, cs) → ∃ li, ls[l]? = some li ∧ ∃ f, Ev O.toArith F li.header li.latch true (.inst x) f ∧ ∀ n, f n = poly cs n)

theorem ScevTab.get_put {t : ScevTab} {x y : Nat} {s r : Scev} (h : (t.put x s).get y = some r) : t.get y = some r ∨ (y = x ∧ r = s) := by
  unfold ScevTab.put at h
  split at h
  · exact .inl h
  · unfold ScevTab.get at h
    rw [List.find?_cons] at h
    by_cases hxy : x = y
    · subst hxy
      simp only [beq_self_eq_true, Option.map_some, Option.some.injEq] at h
      exact .inr ⟨rfl, h.symm⟩
    · simp only [beq_eq_false_iff_ne.mpr hxy] at h
      exact .inl h

theorem GoodTab.put {ls : List (LoopInfo L.C)} {t : ScevTab} (h : GoodTab O F ls t) {x : Nat} {s : Scev}
    (h1 : ∀ z, s.asConst = some z → ∀ H Lt, ∃ f, Ev O.toArith F H Lt false (.inst x) f ∧ ∀ n, f n = z)
    (h2 : ∀ l cs, s.flat = some (l, cs) → ∃ li, ls[l]? = some li ∧ ∃ f, Ev O.toArith F li.header li.latch true (.inst x) f ∧ ∀ n, f n = poly cs n) :
    GoodTab O F ls (t.put x s) := by
  intro y r hr
  rcases ScevTab.get_put hr with hr | ⟨rfl, rfl⟩
  · exact h y r hr
  · exact ⟨h1, h2⟩

theorem GoodTab.constOpd {ls : List (LoopInfo L.C)} {t : ScevTab} (h : GoodTab O F ls t) {o : Opd L.C} {s : Scev} {z : Int} (hq : O.query t o = some s) (hs : s.asConst = some z) (H Lt : Nat) :
    ∃ f, Ev O.toArith F H Lt false o f ∧ ∀ n, f n = z := by
  cases o with
  | inst x => exact (h x s hq).1 z hs H Lt
  | cst c =>
    simp only [LoopOps.query, Option.map_eq_some_iff] at hq
    obtain ⟨⟨w, z'⟩, h1, h2⟩ := hq
    subst h2
    simp only [Scev.asConst, Option.some.injEq] at hs
    subst hs
    exact ⟨_, .lit h1, fun _ => rfl⟩

theorem GoodTab.flatOpd {ls : List (LoopInfo L.C)} {t : ScevTab} (h : GoodTab O F ls t) {o : Opd L.C} {s : Scev} {l : Nat} {cs : List Int} (hq : O.query t o = some s) (hs : s.flat = some (l, cs)) :
    ∃ li, ls[l]? = some li ∧ ∃ f, Ev O.toArith F li.header li.latch true o f ∧ ∀ n, f n = poly cs n := by
  cases o with
  | inst x => exact (h x s hq).2 l cs hs
  | cst c =>
    simp only [LoopOps.query, Option.map_eq_some_iff] at hq
    obtain ⟨e, _, h2⟩ := hq
    subst h2
    simp [Scev.flat] at hs

/-- generic: an operation on two operands -/
theorem GoodTab.fold {ls : List (LoopInfo L.C)} {t : ScevTab} (h : GoodTab O F ls t) {x : Nat} {a b : Opd L.C} {s s' r : Scev} {g : Int → Int → Int}
    (hev : ∀ {H Lt b1 b2 f1 f2}, Ev O.toArith F H Lt b1 a f1 → Ev O.toArith F H Lt b2 b f2 → Ev O.toArith F H Lt (b1 || b2) (.inst x) (fun n => g (f1 n) (f2 n)))
    (ha : O.query t a = some s) (hb : O.query t b = some s')
    (hc : ∀ z, r.asConst = some z → ∃ a b, s.asConst = some a ∧ s'.asConst = some b ∧ z = g a b)
    (hf : ∀ l cs, r.flat = some (l, cs) → ∃ as, s.flat = some (l, as) ∧ ((∃ b, s'.asConst = some b ∧ ∀ n, poly cs n = g (poly as n) b) ∨
      (∃ bs, s'.flat = some (l, bs) ∧ ∀ n, poly cs n = g (poly as n) (poly bs n)))) : GoodTab O F ls (t.put x r) := by
  refine h.put ?_ ?_
  · intro z hz H Lt
    obtain ⟨u, v, h1, h2, h3⟩ := hc z hz
    obtain ⟨f1, e1, k1⟩ := h.constOpd ha h1 H Lt
    obtain ⟨f2, e2, k2⟩ := h.constOpd hb h2 H Lt
    exact ⟨_, hev e1 e2, fun n => by rw [k1, k2, h3]⟩
  · intro l cs hcs
    obtain ⟨as, h1, h2⟩ := hf l cs hcs
    obtain ⟨li, hli, f1, e1, k1⟩ := h.flatOpd ha h1
    rcases h2 with ⟨v, h2, h3⟩ | ⟨bs, h2, h3⟩
    · obtain ⟨f2, e2, k2⟩ := h.constOpd hb h2 li.header li.latch
      exact ⟨li, hli, _, hev e1 e2, fun n => by rw [k1, k2, h3]⟩
    · obtain ⟨li', hli', f2, e2, k2⟩ := h.flatOpd hb h2
      rw [hli] at hli'
      simp only [Option.some.injEq] at hli'
      subst hli'
      exact ⟨li, hli, _, hev e1 e2, fun n => by rw [k1, k2, h3]⟩

theorem GoodTab.givInst {ls : List (LoopInfo L.C)} {t : ScevTab} (h : GoodTab O F ls t) {d : Nat} {D : L.B} {i : Inst L.Op L.C} (hD : F.blk d = some D) (hi : i ∈ D.body)
    (hdiv : O.isDiv i.op = false) : GoodTab O F ls (O.givInst t i) := by
  unfold LoopOps.givInst
  split
  · rename_i a b ha
    split
    · rename_i hop
      split
      · rename_i s s' hs hs'
        split
        · rename_i r hr
          exact h.fold (g := (· + ·)) (fun e1 e2 => .add hD hi hop ha e1 e2) hs hs' (fun z hz => foldAdd_const hr hz) (fun l cs hc => foldAdd_flat hr hc)
        · exact h
      · exact h
    · split
      · rename_i hop
        split
        · rename_i s s' hs hs'
          split
          · rename_i r hr
            exact h.fold (g := (· * ·)) (fun e1 e2 => .mul hD hi hop ha e1 e2) hs hs' (fun z hz => foldMul_const hr hz) (fun l cs hc => foldMul_flat hr hc)
          · exact h
        · exact h
      · rw [if_neg (by simp [hdiv])]; exact h
  · exact h

/-- the table after the first phase has no constants -/
def NoConst (t : ScevTab) : Prop := ∀ x s, t.get x = some s → s.asConst = none

theorem NoConst.query {t : ScevTab} (h : NoConst t) {o : Opd L.C} {s : Scev} {z : Int} (hq : O.query t o = some s) (hs : s.asConst = some z) : ∃ c w, o = .cst c ∧ O.num c = some (w, z) := by
  cases o with
  | inst x => rw [h x s hq] at hs; simp at hs
  | cst c =>
    simp only [LoopOps.query, Option.map_eq_some_iff] at hq
    obtain ⟨⟨w, z'⟩, h1, h2⟩ := hq
    subst h2
    simp only [Scev.asConst, Option.some.injEq] at hs
    subst hs
    exact ⟨c, w, rfl, h1⟩

theorem stepOf_spec {x : Nat} {next : Opd L.C} {z : Int} (h : O.stepOf F x next = some z) : ∃ j d D c w, next = .inst j.id ∧ F.blk d = some D ∧ j ∈ D.body ∧ O.isAdd j.op = true ∧
    O.num c = some (w, z) ∧ (j.args = [.inst x, .cst c] ∨ j.args = [.cst c, .inst x]) := by
  unfold LoopOps.stepOf at h
  split at h
  · rename_i a b hab
    obtain ⟨j, d, D, h1, h2, h3, h4, h5⟩ := addArgs_spec hab
    split at h
    · rename_i z' hz'
      simp only [Option.some.injEq] at h
      subst h
      split at hz'
      · rename_i hax
        obtain ⟨c, w, h6, h7⟩ := lit_spec hz'
        exact ⟨j, d, D, c, w, h1, h2, h3, h4, h7, .inl (by rw [h5, hax, h6])⟩
      · simp at hz'
    · split at h
      · rename_i hbx
        obtain ⟨c, w, h6, h7⟩ := lit_spec h
        exact ⟨j, d, D, c, w, h1, h2, h3, h4, h7, .inr (by rw [h5, hbx, h6])⟩
      · simp at h
  · simp at h

theorem tryMatch_good (W : LiveWf F) {ls : List (LoopInfo L.C)} (hls : ∀ l ∈ ls, IsLoop F l) {t : ScevTab} (hnc : NoConst t) {b : Nat} {B : L.B} (hB : F.blk b = some B) {φ : Phi L.C} (hφ : φ ∈ B.phis)
    {p1 p2 : Nat} {o1 o2 : Opd L.C} (hinc : φ.inc = [(p1, o1), (p2, o2)] ∨ φ.inc = [(p2, o2), (p1, o1)]) {s : Scev} (h : O.tryMatch F (findLoop ls b) t φ.id o1 o2 = some s) :
    s.asConst = none ∧ ∀ l cs, s.flat = some (l, cs) → ∃ li, ls[l]? = some li ∧ ∃ f, Ev O.toArith F li.header li.latch true (.inst φ.id) f ∧ ∀ n, f n = poly cs n := by
  unfold LoopOps.tryMatch at h
  split at h
  · rename_i z s0 hz hs0
    simp only [Option.some.injEq] at h
    subst h
    refine ⟨rfl, fun l cs hf => ?_⟩
    cases hfl : findLoop ls b with
    | none => rw [hfl] at hf; simp [Scev.flat] at hf
    | some l' =>
      rw [hfl] at hf
      simp only [Scev.flat, Option.map_eq_some_iff, Prod.mk.injEq] at hf
      obtain ⟨cs', h1, h2, h3⟩ := hf
      subst h2 h3
      cases hc0 : s0.asConst with
      | none => cases s0 with
        | const _ => simp [Scev.asConst] at hc0
        | addRec _ _ => simp [Scev.consts] at h1
      | some z0 =>
        obtain ⟨c0, w0, h4, h5⟩ := hnc.query hs0 hc0
        cases s0 with
        | addRec _ _ => simp [Scev.asConst] at hc0
        | const z0' =>
          simp only [Scev.asConst, Option.some.injEq] at hc0
          subst hc0
          simp only [Scev.consts, Option.map_some, Option.some.injEq] at h1
          subst h1
          obtain ⟨j, d, D, c, w, h6, h7, h8, h9, h10, h11⟩ := stepOf_spec hz
          unfold findLoop at hfl
          rw [List.findIdx?_eq_some_iff_getElem] at hfl
          obtain ⟨hlt, hhd, _⟩ := hfl
          have hhd : ls[l'].header = b := by simpa using hhd
          refine ⟨ls[l'], List.getElem?_eq_getElem hlt, ?_⟩
          have hl := hls _ (List.getElem_mem hlt)
          generalize ls[l'] = li at hhd hl
          subst hhd
          subst h4 h6
          obtain ⟨e1, e2⟩ := latch_entry (p1 := p1) (p2 := p2) (o := .cst c0) W hl.live hl.edge hl.dom hB hφ h7 h8
            (by intro q v; rcases hinc with h | h <;> simp only [h, List.mem_cons, List.not_mem_nil, or_false] <;> tauto)
            (by rcases h11 with h | h <;> simp [h])
          subst e1
          refine ⟨_, Ev.biv (o := .cst c) hB hφ hinc e2 h5 h7 h8 h9 h11 (.lit h10), fun n => ?_⟩
          rw [poly_sum]
          simp [poly_const]
  · simp at h

theorem bivs_good (W : LiveWf F) {ls : List (LoopInfo L.C)} (hls : ∀ l ∈ ls, IsLoop F l) : GoodTab O F ls (O.bivs F ls []) ∧ NoConst (O.bivs F ls []) := by
  have hphi : ∀ {t b B φ}, F.blk b = some B → φ ∈ B.phis → (GoodTab O F ls t ∧ NoConst t) → (GoodTab O F ls (O.bivPhi F (findLoop ls b) t φ) ∧ NoConst (O.bivPhi F (findLoop ls b) t φ)) := by
    intro t b B φ hB hφ ⟨h1, h2⟩
    have put : ∀ {s}, (s.asConst = none ∧ ∀ l cs, s.flat = some (l, cs) → ∃ li, ls[l]? = some li ∧ ∃ f, Ev O.toArith F li.header li.latch true (.inst φ.id) f ∧ ∀ n, f n = poly cs n) →
        GoodTab O F ls (t.put φ.id s) ∧ NoConst (t.put φ.id s) := by
      intro s ⟨h3, h4⟩
      refine ⟨h1.put (fun z hz => by rw [h3] at hz; simp at hz) h4, ?_⟩
      intro y r hr
      rcases ScevTab.get_put hr with hr | ⟨_, rfl⟩
      · exact h2 y r hr
      · exact h3
    unfold LoopOps.bivPhi
    split
    · rename_i e1 e2 hinc
      split
      · rename_i s hs
        exact put (tryMatch_good W hls h2 hB hφ (.inl hinc) hs)
      · split
        · rename_i s hs
          exact put (tryMatch_good W hls h2 hB hφ (.inr hinc) hs)
        · exact ⟨h1, h2⟩
    · exact ⟨h1, h2⟩
  have hblock : ∀ {b B}, F.blk b = some B → ∀ (ps : List (Phi L.C)), (∀ φ ∈ ps, φ ∈ B.phis) → ∀ t, (GoodTab O F ls t ∧ NoConst t) →
      (GoodTab O F ls (ps.foldl (O.bivPhi F (findLoop ls b)) t) ∧ NoConst (ps.foldl (O.bivPhi F (findLoop ls b)) t)) := by
    intro b B hB ps
    induction ps with
    | nil => intro _ t h; exact h
    | cons φ ps ih => intro hm t h; exact ih (fun φ' h' => hm φ' (List.mem_cons_of_mem _ h')) _ (hphi hB (hm φ (by simp)) h)
  unfold LoopOps.bivs
  have hall : ∀ (bs : List Nat) t, (GoodTab O F ls t ∧ NoConst t) →
      (GoodTab O F ls (bs.foldl (fun t b => match F.blk b with | some B => B.phis.foldl (O.bivPhi F (findLoop ls b)) t | none => t) t) ∧
        NoConst (bs.foldl (fun t b => match F.blk b with | some B => B.phis.foldl (O.bivPhi F (findLoop ls b)) t | none => t) t)) := by
    intro bs
    induction bs with
    | nil => intro t h; exact h
    | cons b bs ih =>
      intro t h
      rw [List.foldl_cons]
      refine ih _ ?_
      cases hB : F.blk b with
      | none => exact h
      | some B => exact hblock hB B.phis (fun _ h => h) t h
  exact hall F.order [] ⟨fun x s h => by simp [ScevTab.get] at h, fun x s h => by simp [ScevTab.get] at h⟩

/-- every entry of the result of the analysis is backed by a derivation -/
theorem scev_good (W : LiveWf F) {ls : List (LoopInfo L.C)} (hls : ∀ l ∈ ls, IsLoop F l) (hdiv : ∀ b B i, F.blk b = some B → i ∈ B.body → O.isDiv i.op = false) : GoodTab O F ls (O.scev F ls) := by
  have hblock : ∀ {b B}, F.blk b = some B → ∀ (is : List (Inst L.Op L.C)), (∀ i ∈ is, i ∈ B.body) → ∀ t, GoodTab O F ls t → GoodTab O F ls (is.foldl O.givInst t) := by
    intro b B hB is
    induction is with
    | nil => intro _ t h; exact h
    | cons i is ih => intro hm t h; exact ih (fun φ' h' => hm φ' (List.mem_cons_of_mem _ h')) _ (h.givInst hB (hm i (by simp)) (hdiv b B i hB (hm i (by simp))))
  unfold LoopOps.scev LoopOps.givs
  have hall : ∀ (bs : List Nat) t, GoodTab O F ls t → GoodTab O F ls (bs.foldl (fun t b => match F.blk b with | some B => B.body.foldl O.givInst t | none => t) t) := by
    intro bs
    induction bs with
    | nil => intro t h; exact h
    | cons b bs ih =>
      intro t h
      rw [List.foldl_cons]
      refine ih _ ?_
      cases hB : F.blk b with
      | none => exact h
      | some B => exact hblock hB B.body (fun _ h => h) t h
  exact hall F.order _ (bivs_good W hls).1

/-- C88 (for functions without `sdiv`): take a function whose live part is in SSA form, its dominator analysis `t`, the loops and the table
computed from it. Let `s'` be a state of a run, reached by executing block `s.cur` as step `n`, and let `x` be an instruction whose block
dominates `s.cur` (so that it has been executed).
* If the table says that `x` is the constant `z`, its value is `z`.
* If the table says that `x` is `{c₀,+,c₁,+,…}` in a loop, its value is `Σ cₖ·C(i,k)`, where `i` is the number of the iteration of that loop in
  which the run is: how often it has gone from the latch to the header since it last entered the loop.
Values are those of the type of `x`, so the statement covers wraparound. Missing for the full claim: the rule for `sdiv`, which is wrong
(`ScevEx.div_wrong`). -/
theorem C88_scev_partial (W : LiveWf F) {ty : Nat → Nat} (T : Typed O.toArith F ty) (o : Orders) {ls : List (LoopInfo L.C)} (hls : (F.dom o).map (O.loops F) = some ls)
    (hdiv : ∀ b B i, F.blk b = some B → i ∈ B.body → O.isDiv i.op = false) {m : L.M} {n : Nat} {s s' : St L} (hs : stAt L F m n = some s) (hstep : SSA.step L F s = .inl s')
    {x d : Nat} (hx : DefIn F x d) (hd : Domi F d s.cur) {e : Scev} (he : (O.scev F ls).get x = some e) :
    (∀ z, e = .const z → s'.env x = some (O.int (ty x) z)) ∧
    (∀ l cs li, e = .addRec (some l) (cs.map .const) → ls[l]? = some li → s'.env x = some (O.int (ty x) (poly cs (iterAt L F m li.header li.latch n)))) := by
  simp only [Option.map_eq_some_iff] at hls
  obtain ⟨t, ht, rfl⟩ := hls
  obtain ⟨t', ht', _, hdom, _⟩ := dom_spec o W.nodup W.listed
  rw [ht] at ht'
  simp only [Option.some.injEq] at ht'
  subst ht'
  have G := scev_good (O := O) W (loops_isLoop (O := O) (fun a b h => (hdom a b).mp h)) hdiv x e he
  refine ⟨?_, ?_⟩
  · rintro z rfl
    obtain ⟨f, h1, h2⟩ := G.1 z rfl 0 0
    obtain ⟨hl, _, _, B, hB, hJ⟩ := stAt_inv W T (H := 0) (Lt := 0) hs hstep
    rw [hJ false x f h1 (W.avail_end hx hd hB), h2]
  · rintro l cs li rfl hli
    obtain ⟨li', h0, f, h1, h2⟩ := G.2 l cs (by simp [Scev.flat, consts_map])
    rw [hli] at h0
    simp only [Option.some.injEq] at h0
    subst h0
    obtain ⟨hl, _, _, B, hB, hJ⟩ := stAt_inv W T (H := li.header) (Lt := li.latch) hs hstep
    rw [hJ true x f h1 (W.avail_end hx hd hB), h2]

end
end Cmmc.SSA
