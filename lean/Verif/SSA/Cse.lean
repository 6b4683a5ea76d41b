import Verif.SSA.Sub
import Verif.SSA.ExProper
/-!
# C39: SimpleCSE (Transforms/Merge/CSE.cpp)
-/
namespace Cmmc.SSA
section
variable {Op C : Type}

/-- the replacement of one instruction -/
def one (x : Nat) (v : Opd C) : Nat → Opd C := fun y => if y = x then v else .inst y

/-- `x->replaceWith(v)`: every use of `x` becomes a use of `v` (Instruction.cpp:163-173, 203-206) -/
def Func.replace (F : Func Op C) (x : Nat) (v : Opd C) : Func Op C := F.sub (one x v)

def Block.phi? (B : Block Op C) (x : Nat) : Option (Phi C) := B.phis.find? (fun p => p.id == x)
def Block.inst? (B : Block Op C) (x : Nat) : Option (Inst Op C) := B.body.find? (fun i => i.id == x)

/-- `PhiInst::isEqual` (Instruction.cpp:897-909): every incoming value of `p` is an incoming value of `q` from the same block -/
def phiEq [DecidableEq C] (p q : Phi C) : Bool := p.inc.all (fun e => decide (q.at e.1 = some e.2))

/-- one phi in `instMerge` (CSE.cpp:59-71). `ty x y`: the types of the two phis are equal. -/
def csePhi [DecidableEq C] (ty : Nat → Nat → Bool) (b : Nat) (st : Func Op C × List Nat) (x : Nat) : Func Op C × List Nat :=
  match (st.1.blk b).bind (·.phi? x) with
  | none => st
  | some p =>
    match st.2.find? (fun y => match (st.1.blk b).bind (·.phi? y) with | some q => ty x y && phiEq p q | none => false) with
    | some y => (st.1.replace x (.inst y), st.2)
    | none => (st.1, st.2 ++ [x])

/-- one other instruction in `instMerge` (CSE.cpp:72-79). `mv`: `isMovableExpr(inst, false)`; the opcode stands for everything that
`Instruction::isEqual` compares (opcode, type, comparison predicate). The set `lut` holds earlier instructions of the block; their
operands do not change while the block is processed, so that looking up the hash table finds an equal element iff there is one. -/
def cseInst [DecidableEq Op] [DecidableEq C] (mv : Op → Bool) (b : Nat) (st : Func Op C × List Nat) (x : Nat) : Func Op C × List Nat :=
  match (st.1.blk b).bind (·.inst? x) with
  | none => st
  | some i =>
    if mv i.op then
      match st.2.find? (fun y => match (st.1.blk b).bind (·.inst? y) with | some j => decide (j.op = i.op ∧ j.args = i.args) | none => false) with
      | some y => (st.1.replace x (.inst y), st.2)
      | none => (st.1, st.2 ++ [x])
    else st

/-- `instMerge` (CSE.cpp:54-82) -/
def cseBlock [DecidableEq Op] [DecidableEq C] (ty : Nat → Nat → Bool) (mv : Op → Bool) (F : Func Op C) (b : Nat) : Func Op C :=
  match F.blk b with
  | none => F
  | some B =>
    ((B.body.map Inst.id).foldl (cseInst mv b) (((B.phis.map Phi.id).foldl (csePhi ty b) (F, [])).1, [])).1

/-- `SimpleCSE::run` (CSE.cpp:85-92) -/
def simpleCSE [DecidableEq Op] [DecidableEq C] (ty : Nat → Nat → Bool) (mv : Op → Bool) (F : Func Op C) : Func Op C :=
  F.order.foldl (cseBlock ty mv) F

theorem earlier_one {F : Func Op C} {x : Nat} {v : Opd C} (h : ∀ y, v = .inst y → Before F y x) : Earlier F (one x v) := by
  intro z y e
  unfold one at e
  split at e
  · rename_i hz; subst hz; exact .inr (h y e)
  · simp only [Opd.inst.injEq] at e; exact .inl e.symm

theorem before_of_split {F : Func Op C} {b : Nat} {B : Block Op C} (hB : F.blk b = some B) {x y : Nat} {pre post : List Nat}
    (h : B.ids = pre ++ x :: post) (hy : y ∈ pre) : Before F y x := by
  obtain ⟨l₁, l₂, rfl⟩ := List.append_of_mem hy
  exact .inr ⟨b, B, l₁, l₂, post, hB, by rw [h]⟩

theorem Block.phi?_mem {B : Block Op C} {x : Nat} {p : Phi C} (h : B.phi? x = some p) : p ∈ B.phis ∧ p.id = x := by
  have h1 := List.mem_of_find?_eq_some h
  have h2 := List.find?_some h
  exact ⟨h1, by simpa using h2⟩

theorem Block.inst?_mem {B : Block Op C} {x : Nat} {i : Inst Op C} (h : B.inst? x = some i) : i ∈ B.body ∧ i.id = x := by
  have h1 := List.mem_of_find?_eq_some h
  have h2 := List.find?_some h
  exact ⟨h1, by simpa using h2⟩

end

section
variable {L : Lang} {F : L.F}

/-- what a phi gets on entry -/
theorem enterPhis_val {pred : Option Nat} {old : Env L} : ∀ {ps : List (Phi L.C)} {env env' : Env L}, enterPhis L pred old ps env = some env' →
    (ps.map Phi.id).Nodup → ∀ p ∈ ps, env' p.id = phiVal L pred old p ∧ env' p.id ≠ none := by
  intro ps
  induction ps with
  | nil => intro env env' _ _ p hp; simp at hp
  | cons p ps ih =>
    intro env env' h hn q hq
    simp only [enterPhis] at h
    rw [List.map_cons, List.nodup_cons] at hn
    cases hv : phiVal L pred old p with
    | none => rw [hv] at h; simp at h
    | some v =>
      rw [hv] at h
      simp only at h
      rcases List.mem_cons.mp hq with rfl | hq
      · rw [enterPhis_other h _ hn.1]; simp [setEnv, hv]
      · exact ih h hn.2 q hq

theorem setEnv_of_ne {env : Env L} {i j : Nat} {v : L.V} (h : j ≠ i) : setEnv L env i v j = env j := by
  unfold setEnv; rw [if_neg h]

theorem Proper.phis_nodup {Op C : Type} {F : Func Op C} (P : Proper F) {b : Nat} {B : Block Op C} (hB : F.blk b = some B) : (B.phis.map Phi.id).Nodup := by
  have := P.block_ids hB
  unfold Block.ids at this
  rw [List.nodup_append] at this
  exact this.1

/-- a phi is no other instruction -/
theorem Proper.phi_ne_inst {Op C : Type} {F : Func Op C} (P : Proper F) {b d : Nat} {B D : Block Op C} (hB : F.blk b = some B) (hD : F.blk d = some D) {p : Phi C} {i : Inst Op C}
    (hp : p ∈ B.phis) (hi : i ∈ D.body) : p.id ≠ i.id := by
  intro e
  have h1 : DefIn F p.id b := ⟨B, hB, List.mem_append.mpr (.inl (List.mem_map.mpr ⟨p, hp, rfl⟩))⟩
  have h2 : DefIn F p.id d := e ▸ ⟨D, hD, List.mem_append.mpr (.inr (List.mem_map.mpr ⟨i, hi, rfl⟩))⟩
  have := P.home h1 h2
  subst this
  have := Option.some.inj (hB.symm.trans hD)
  subst this
  have hids := P.block_ids hB
  unfold Block.ids at hids
  rw [List.nodup_append] at hids
  exact hids.2.2 _ (List.mem_map.mpr ⟨p, hp, rfl⟩) _ (List.mem_map.mpr ⟨i, hi, rfl⟩) e

/-- two phis of a block whose operands agree have the same value -/
theorem phi_inv (P : Proper F) {b : Nat} {B : L.B} (hB : F.blk b = some B) {p q : Phi L.C} (hp : p ∈ B.phis) (hq : q ∈ B.phis) (he : phiEq p q = true) :
    PointInv F (fun c k env => Avail F c k p.id → env p.id = env q.id) := by
  have hpb : DefIn F p.id b := ⟨B, hB, List.mem_append.mpr (.inl (List.mem_map.mpr ⟨p, hp, rfl⟩))⟩
  have hqb : DefIn F q.id b := ⟨B, hB, List.mem_append.mpr (.inl (List.mem_map.mpr ⟨q, hq, rfl⟩))⟩
  refine ⟨?_, ?_, ?_⟩
  · intro _; rfl
  · intro r c C A env env' hr hrc hA hC hQ hen hav
    rcases P.avail_enter hrc hA hC hav with h | ⟨h, hav'⟩
    · have := P.home hpb ⟨C, hC, List.mem_append.mpr (.inl h)⟩
      subst this
      have := Option.some.inj (hC.symm.trans hB)
      subst this
      have h1 := enterPhis_val hen (P.phis_nodup hC) p hp
      have h2 := enterPhis_val hen (P.phis_nodup hC) q hq
      have h3 := h1.2
      rw [h1.1] at h3 ⊢
      rw [h2.1]
      unfold phiVal at h3 ⊢
      simp only at h3 ⊢
      cases hat : p.at r with
      | none => rw [hat] at h3; simp at h3
      | some v =>
        have := List.all_eq_true.mp he (r, v) (Phi.at_mem hat)
        simp only [decide_eq_true_eq] at this
        rw [this]
    · have hcb : c ≠ b := by
        rintro rfl
        have := Option.some.inj (hC.symm.trans hB)
        subst this
        exact h (List.mem_append.mpr (.inl (List.mem_map.mpr ⟨p, hp, rfl⟩)))
      have hno : ∀ x, DefIn F x b → x ∉ C.phis.map Phi.id := fun x hx hm => hcb (P.home ⟨C, hC, List.mem_append.mpr (.inl hm)⟩ hx)
      rw [enterPhis_other hen _ (hno _ hpb), enterPhis_other hen _ (hno _ hqb)]
      exact hQ hav'
  · intro c k C i env vs v m m' es hc hC hi hQ hvs hs hav
    have him := List.mem_of_getElem? hi
    have h1 := P.phi_ne_inst hB hC hp him
    have h2 := P.phi_ne_inst hB hC hq him
    rw [setEnv_of_ne h1, setEnv_of_ne h2]
    rcases avail_succ hC hi hav with h | h
    · exact hQ h
    · exact absurd h h1

theorem eval_one {x : Nat} {v : Opd L.C} {env : Env L} (h : eval L env v = env x) (z : Nat) : eval L env (one x v z) = env z := by
  unfold one
  split
  · rename_i e; rw [e]; exact h
  · rfl

/-- replacing one instruction -/
theorem replace_ok {Q : Nat → Nat → Env L → Prop} (I : PointInv F Q) (P : Proper F) {x : Nat} {v : Opd L.C}
    (hv : ∀ b k env, L.M → Live F b → Q b k env → Avail F b k x → eval L env v = env x) (hb : ∀ y, v = .inst y → Before F y x) :
    Refines L F (F.replace x v) ∧ Proper (F.replace x v) := by
  refine ⟨fun m => refines_sub I P ?_ m, proper_sub P (earlier_one hb)⟩
  intro b k env z hl hq hav
  unfold one
  split
  · rename_i e; subst e; exact hv b k env m hl hq hav
  · rfl

/-- the ids of a block are not changed -/
def SameIds (F G : L.F) : Prop := F.entry = G.entry ∧ F.order = G.order ∧ ∀ b, (F.blk b).map (fun B => (B.phis.map Phi.id, B.body.map Inst.id)) =
  (G.blk b).map (fun B => (B.phis.map Phi.id, B.body.map Inst.id))

theorem SameIds.refl (F : L.F) : SameIds F F := ⟨rfl, rfl, fun _ => rfl⟩
theorem SameIds.trans {F G H : L.F} (h : SameIds F G) (h' : SameIds G H) : SameIds F H :=
  ⟨h.1.trans h'.1, h.2.1.trans h'.2.1, fun b => (h.2.2 b).trans (h'.2.2 b)⟩
theorem sameIds_sub (F : L.F) (σ : Nat → Opd L.C) : SameIds F (F.sub σ) := by
  refine ⟨rfl, rfl, fun b => ?_⟩
  simp only [Func.sub, Option.map_map]
  congr 1
  funext B
  simp [Block.sub, Function.comp_def, Phi.sub, Inst.sub]

theorem SameIds.blk {F G : L.F} (h : SameIds F G) {b : Nat} {B : L.B} (hB : F.blk b = some B) : ∃ B', G.blk b = some B' ∧ B'.phis.map Phi.id = B.phis.map Phi.id ∧
    B'.body.map Inst.id = B.body.map Inst.id := by
  have := h.2.2 b
  rw [hB, Option.map_some] at this
  obtain ⟨B', h1, h2⟩ := Option.map_eq_some_iff.mp this.symm
  simp only [Prod.mk.injEq] at h2
  exact ⟨B', h1, h2.1, h2.2⟩

/-- the result of a stretch of the pass -/
def Good (F G : L.F) : Prop := Refines L F G ∧ Proper G ∧ SameIds F G

theorem Good.trans {F G H : L.F} (h : Good F G) (h' : Good G H) : Good F H := ⟨h.1.trans h'.1, h'.2.1, h.2.2.trans h'.2.2⟩

theorem csePhi_ok {ty : Nat → Nat → Bool} (P : Proper F) {b : Nat} {B : L.B} (hB : F.blk b = some B) {lut pre post : List Nat} {x : Nat}
    (hsplit : B.phis.map Phi.id = pre ++ x :: post) (hlut : ∀ y ∈ lut, y ∈ pre) :
    Good F (csePhi ty b (F, lut) x).1 ∧ ∀ y ∈ (csePhi ty b (F, lut) x).2, y ∈ pre ++ [x] := by
  have hkeep : Good F F ∧ ∀ y ∈ lut, y ∈ pre ++ [x] := ⟨⟨Refines.refl F, P, SameIds.refl F⟩, fun y hy => by simp [hlut y hy]⟩
  unfold csePhi
  simp only [hB, Option.bind_some]
  cases hp : B.phi? x with
  | none => exact hkeep
  | some p =>
    simp only
    split
    · rename_i y hy
      have hyl := List.mem_of_find?_eq_some hy
      have hcond := List.find?_some hy
      split at hcond
      · rename_i q hq
        rw [Bool.and_eq_true] at hcond
        obtain ⟨hpm, hpx⟩ := Block.phi?_mem hp
        obtain ⟨hqm, hqy⟩ := Block.phi?_mem hq
        have I := phi_inv P hB hpm hqm hcond.2
        have := replace_ok I P (x := x) (v := .inst y) (fun c k env _ _ hQ hav => by
          have := hQ (hpx ▸ hav)
          rw [hpx, hqy] at this
          exact this.symm) (fun z hz => by
            simp only [Opd.inst.injEq] at hz
            subst hz
            have : B.ids = pre ++ x :: (post ++ B.body.map Inst.id) := by unfold Block.ids; rw [hsplit]; simp
            exact before_of_split hB this (hlut _ hyl))
        exact ⟨⟨this.1, this.2, sameIds_sub F _⟩, fun z hz => by simp [hlut z hz]⟩
      · simp at hcond
    · exact ⟨hkeep.1, fun y hy => by
        rcases List.mem_append.mp hy with h | h
        · simp [hlut y h]
        · simp at h; simp [h]⟩

theorem cseInst_ok {mv : L.Op → Bool} (hmv : Movable L mv) (P : Proper F) {b : Nat} {B : L.B} (hB : F.blk b = some B) {lut pre post : List Nat} {x : Nat}
    (hsplit : B.body.map Inst.id = pre ++ x :: post) (hlut : ∀ y ∈ lut, y ∈ pre) :
    Good F (cseInst mv b (F, lut) x).1 ∧ ∀ y ∈ (cseInst mv b (F, lut) x).2, y ∈ pre ++ [x] := by
  have hkeep : Good F F ∧ ∀ y ∈ lut, y ∈ pre ++ [x] := ⟨⟨Refines.refl F, P, SameIds.refl F⟩, fun y hy => by simp [hlut y hy]⟩
  unfold cseInst
  simp only [hB, Option.bind_some]
  cases hi : B.inst? x with
  | none => exact hkeep
  | some i =>
    simp only
    split
    · rename_i hop
      split
      · rename_i y hy
        have hyl := List.mem_of_find?_eq_some hy
        have hcond := List.find?_some hy
        split at hcond
        · rename_i j hj
          simp only [decide_eq_true_eq] at hcond
          obtain ⟨him, hix⟩ := Block.inst?_mem hi
          obtain ⟨hjm, hjy⟩ := Block.inst?_mem hj
          have hbef : Before F y x := by
            have : B.ids = (B.phis.map Phi.id ++ pre) ++ x :: post := by unfold Block.ids; rw [hsplit]; simp
            exact before_of_split hB this (List.mem_append.mpr (.inr (hlut _ hyl)))
          have := replace_ok (eqns_inv hmv P) P (x := x) (v := .inst y) (fun c k env m _ hQ hav => by
            obtain ⟨vs, v, e1, e2, e3⟩ := hQ b B i hB him hop (hix ▸ hav)
            obtain ⟨ws, w, d1, d2, d3⟩ := hQ b B j hB hjm (by rw [hcond.1]; exact hop) (hjy ▸ hbef.avail P hav)
            rw [hcond.2, e1] at d1
            have := Option.some.inj d1
            subst this
            rw [hix] at e2; rw [hjy] at d2
            simp only [eval]
            rw [e2, d2]
            have h1 := e3 m
            have h2 := d3 m
            rw [hcond.1, h1] at h2
            simp only [Res.ok.injEq] at h2
            rw [h2.1]) (fun z hz => by
              simp only [Opd.inst.injEq] at hz
              subst hz
              exact hbef)
          exact ⟨⟨this.1, this.2, sameIds_sub F _⟩, fun z hz => by simp [hlut z hz]⟩
        · simp at hcond
      · exact ⟨hkeep.1, fun y hy => by
          rcases List.mem_append.mp hy with h | h
          · simp [hlut y h]
          · simp at h; simp [h]⟩
    · exact hkeep

theorem csePhis_ok {ty : Nat → Nat → Bool} {b : Nat} {B : L.B} : ∀ (post pre lut : List Nat) {F : L.F}, Proper F → (∃ B', F.blk b = some B' ∧
    B'.phis.map Phi.id = B.phis.map Phi.id) → B.phis.map Phi.id = pre ++ post → (∀ y ∈ lut, y ∈ pre) → Good F (post.foldl (csePhi ty b) (F, lut)).1 := by
  intro post
  induction post with
  | nil => intro pre lut F P _ _ _; exact ⟨Refines.refl F, P, SameIds.refl F⟩
  | cons x post ih =>
    rintro pre lut F P ⟨B', hB', hids⟩ hs hl
    obtain ⟨h1, h2⟩ := csePhi_ok (ty := ty) P hB' (x := x) (by rw [hids]; exact hs) hl
    obtain ⟨B'', hB'', e1, e2⟩ := h1.2.2.blk hB'
    refine h1.trans (ih (pre ++ [x]) _ h1.2.1 ⟨B'', hB'', e1.trans hids⟩ (by rw [hs]; simp) h2)

theorem cseInsts_ok {mv : L.Op → Bool} (hmv : Movable L mv) {b : Nat} {B : L.B} : ∀ (post pre lut : List Nat) {F : L.F}, Proper F → (∃ B', F.blk b = some B' ∧
    B'.body.map Inst.id = B.body.map Inst.id) → B.body.map Inst.id = pre ++ post → (∀ y ∈ lut, y ∈ pre) → Good F (post.foldl (cseInst mv b) (F, lut)).1 := by
  intro post
  induction post with
  | nil => intro pre lut F P _ _ _; exact ⟨Refines.refl F, P, SameIds.refl F⟩
  | cons x post ih =>
    rintro pre lut F P ⟨B', hB', hids⟩ hs hl
    obtain ⟨h1, h2⟩ := cseInst_ok hmv P hB' (x := x) (by rw [hids]; exact hs) hl
    obtain ⟨B'', hB'', e1, e2⟩ := h1.2.2.blk hB'
    refine h1.trans (ih (pre ++ [x]) _ h1.2.1 ⟨B'', hB'', e2.trans hids⟩ (by rw [hs]; simp) h2)

theorem cseBlock_ok {ty : Nat → Nat → Bool} {mv : L.Op → Bool} (hmv : Movable L mv) (P : Proper F) (b : Nat) : Good F (cseBlock ty mv F b) := by
  unfold cseBlock
  split
  · exact ⟨Refines.refl F, P, SameIds.refl F⟩
  · rename_i B hB
    have h1 := csePhis_ok (ty := ty) (b := b) (B := B) (B.phis.map Phi.id) [] [] P ⟨B, hB, rfl⟩ rfl (by simp)
    obtain ⟨B', hB', e1, e2⟩ := h1.2.2.blk hB
    exact h1.trans (cseInsts_ok hmv (b := b) (B := B) (B.body.map Inst.id) [] [] h1.2.1 ⟨B', hB', e2⟩ rfl (by simp))

/-- **C39.** For every function accepted by the verifier, whatever its instructions compute, SimpleCSE yields a function that is again
accepted, has the same blocks and instructions, and behaves the same in every run. Assumed of the instruction set: the opcodes for which
`isMovableExpr` answers yes compute their result from their operands only, without touching memory or producing events. -/
theorem C39_simpleCSE {ty : Nat → Nat → Bool} {mv : L.Op → Bool} (hmv : Movable L mv) (F : L.F) (P : Proper F) :
    Refines L F (simpleCSE ty mv F) ∧ Proper (simpleCSE ty mv F) ∧ SameIds F (simpleCSE ty mv F) := by
  have : ∀ (bs : List Nat) (G : L.F), Good F G → Good F (bs.foldl (cseBlock ty mv) G) := by
    intro bs
    induction bs with
    | nil => intro G h; exact h
    | cons b bs ih => intro G h; exact ih _ (h.trans (cseBlock_ok hmv h.2.1 b))
  exact this F.order F ⟨Refines.refl F, P, SameIds.refl F⟩
end

namespace Ex
/-- movable opcodes of the example language -/
def xmv : XOp → Bool
  | .add | .mul | .lt => true
  | _ => false

theorem x_movable : Movable X xmv := by
  intro op h vs
  have two : ∀ (f : Int → Int → Int) (g : List Int → (Int → Int) → Res Int (Int → Int) Int Unit),
      (∀ a b m, g [a, b] m = .ok (f a b) m []) → (∀ m, g [] m = .ub) → (∀ a m, g [a] m = .ub) → (∀ a b c l m, g (a :: b :: c :: l) m = .ub) →
      ∀ vs : List Int, (∀ m, g vs m = .ub) ∨ ∃ v, ∀ m, g vs m = .ok v m [] := by
    intro f g h2 h0 h1 h3 vs
    match vs with
    | [] => exact .inl h0
    | [a] => exact .inl (h1 a)
    | [a, b] => exact .inr ⟨f a b, h2 a b⟩
    | a :: b :: c :: l => exact .inl (h3 a b c l)
  cases op <;> simp only [xmv, Bool.false_eq_true] at h
  · exact two (fun a b => a + b) (xsem .add) (fun _ _ _ => rfl) (fun _ => rfl) (fun _ _ => rfl) (fun _ _ _ _ _ => rfl) vs
  · exact two (fun a b => a * b) (xsem .mul) (fun _ _ _ => rfl) (fun _ => rfl) (fun _ _ => rfl) (fun _ _ _ _ _ => rfl) vs
  · exact two (fun a b => if a < b then 1 else 0) (xsem .lt) (fun _ _ _ => rfl) (fun _ => rfl) (fun _ _ => rfl) (fun _ _ _ _ _ => rfl) vs

/-- a loop with two equal phis and, once they are merged, two equal products -/
def twins : Func XOp Int := mk
  [(0, ⟨[], [], .br 1⟩),
   (1, ⟨[⟨10, [(0, .cst 0), (1, .inst 12)]⟩, ⟨20, [(0, .cst 0), (1, .inst 12)]⟩],
        [⟨14, .mul, [.inst 10, .inst 10]⟩, ⟨15, .mul, [.inst 20, .inst 20]⟩, ⟨16, .print, [.inst 14]⟩, ⟨17, .print, [.inst 15]⟩,
         ⟨12, .add, [.inst 20, .cst 1]⟩, ⟨13, .lt, [.inst 12, .cst 2]⟩],
        .cbr (.inst 13) 1 2⟩),
   (2, ⟨[], [], .ret (some (.inst 15))⟩)]

theorem twins_proper : Proper twins := (mk_proper _ (by decide +kernel)).1

example (m : Int → Int) : Ends X twins m (out 1 m [0, 0, 1, 1]) := ⟨4, rfl⟩
/-- the second phi and the second product are no longer used -/
example : (simpleCSE (fun _ _ => true) xmv twins).blk 1 = some
    ⟨[⟨10, [(0, .cst 0), (1, .inst 12)]⟩, ⟨20, [(0, .cst 0), (1, .inst 12)]⟩],
     [⟨14, .mul, [.inst 10, .inst 10]⟩, ⟨15, .mul, [.inst 10, .inst 10]⟩, ⟨16, .print, [.inst 14]⟩, ⟨17, .print, [.inst 14]⟩,
      ⟨12, .add, [.inst 10, .cst 1]⟩, ⟨13, .lt, [.inst 12, .cst 2]⟩],
     .cbr (.inst 13) 1 2⟩ := rfl
/-- and the output is the same -/
example (m : Int → Int) : Ends X (simpleCSE (Op := X.Op) (C := X.C) (fun _ _ => true) xmv twins) m (out 1 m [0, 0, 1, 1]) :=
  ((C39_simpleCSE (ty := fun _ _ => true) x_movable twins twins_proper).1 m).1 _ ⟨4, rfl⟩ nofun
end Ex
end Cmmc.SSA
