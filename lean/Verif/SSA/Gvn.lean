import Verif.SSA.Insert
/-!
# C41: GVN (Transforms/Merge/GVN.cpp)
-/
namespace Cmmc.SSA
section
variable {Op C : Type}

/-- the instruction with the given id -/
def Func.inst? (F : Func Op C) (x : Nat) : Option (Inst Op C) := F.blocks.findSome? (fun B => B.inst? x)

/-- a value class (GVN.cpp:115-128): its number, what its members have in common (opcode and operand numbers, recomputed by `equal` from
an arbitrary member in the code), its members -/
structure Cls (Op : Type) where
  id : Nat
  key : Op × List Nat
  mem : List Nat

/-- `allocateID`, `valueNumber`, `instNumber` (GVN.cpp:79-115). The hash of an instruction is a function of the key of its class, so that
looking into the bucket finds the class of an instruction iff it exists: the buckets are left out. -/
structure NumSt (Op C : Type) where
  alloc : Nat
  vals : List (Opd C × Nat)
  classes : List (Cls Op)

/-- `isMovableExpr(*inst, false)` on a value -/
def Func.movable? (mv : Op → Bool) (F : Func Op C) : Opd C → Option (Inst Op C)
  | .inst x => (F.inst? x).filter (fun i => mv i.op)
  | .cst _ => none

/-- `getValueNumber` (GVN.cpp:81-90) -/
def numVal [DecidableEq C] (o : Opd C) (st : NumSt Op C) : Nat × NumSt Op C :=
  match st.vals.find? (fun e => decide (e.1 = o)) with
  | some e => (e.2, st)
  | none => (st.alloc, { st with alloc := st.alloc + 1, vals := (o, st.alloc) :: st.vals })

/-- the numbers of the operands, which `hasher` computes first (GVN.cpp:40-50) -/
def numArgs (rec : Opd C → NumSt Op C → Option (Nat × NumSt Op C)) : List (Opd C) → NumSt Op C → Option (List Nat × NumSt Op C)
  | [], st => some ([], st)
  | a :: as, st =>
    match rec a st with
    | none => none
    | some (k, st1) =>
      match numArgs rec as st1 with
      | none => none
      | some (ks, st2) => some (k :: ks, st2)

/-- `getInstNumber` (GVN.cpp:117-133) -/
def numInst [DecidableEq Op] (rec : Opd C → NumSt Op C → Option (Nat × NumSt Op C)) (i : Inst Op C) (st : NumSt Op C) : Option (Nat × NumSt Op C) :=
  match numArgs rec i.args st with
  | none => none
  | some (ks, st) =>
    match st.classes.find? (fun c => decide (i.id ∈ c.mem)) with
    | some c => some (c.id, st)
    | none =>
      match st.classes.find? (fun c => decide (c.key = (i.op, ks))) with
      | some c => some (c.id, { st with classes := st.classes.map (fun d => if d.id = c.id then { d with mem := i.id :: d.mem } else d) })
      | none => some (st.alloc, { st with alloc := st.alloc + 1, classes := st.classes ++ [⟨st.alloc, (i.op, ks), [i.id]⟩] })

/-- `getNumber` (GVN.cpp:135-144) -/
def getNumber [DecidableEq Op] [DecidableEq C] (mv : Op → Bool) (F : Func Op C) : Nat → Opd C → NumSt Op C → Option (Nat × NumSt Op C)
  | 0, _, _ => none
  | n + 1, o, st =>
    match F.movable? mv o with
    | some i => numInst (getNumber mv F n) i st
    | none => some (numVal o st)

/-- the instructions of the blocks that `dom.blocks()` lists -/
def linear (blocks : List Nat) (F : Func Op C) : List Nat :=
  blocks.flatMap (fun b => match F.blk b with | some B => B.body.map Inst.id | none => [])

/-- numbering (GVN.cpp:148-158) -/
def numberAll [DecidableEq Op] [DecidableEq C] (mv : Op → Bool) (F : Func Op C) (fuel : Nat) : List Nat → NumSt Op C → Option (NumSt Op C)
  | [], st => some st
  | x :: xs, st =>
    match F.movable? mv (.inst x) with
    | none => numberAll mv F fuel xs st
    | some _ =>
      match getNumber mv F fuel (.inst x) st with
      | none => none
      | some (_, st') => numberAll mv F fuel xs st'

/-- the class of an instruction -/
def NumSt.cls (st : NumSt Op C) (x : Nat) : Option Nat := (st.classes.find? (fun c => decide (x ∈ c.mem))).map Cls.id

/-- the function, the classes including hoisted instructions, `operandMap` -/
structure GSt (Op C : Type) where
  F : Func Op C
  cls : Nat → Option Nat
  om : Nat → Option (Opd C)

/-- the lowest common dominator of the blocks of the instructions (GVN.cpp:176-183) -/
def lcaAll (lca : Nat → Nat → Option Nat) : List Nat → Option Nat
  | [] => none
  | b :: bs => bs.foldl (fun a c => a.bind (fun a => lca a c)) (some b)

/-- the operand of a hoisted instruction (GVN.cpp:225-232). Hoisted instructions are found in their class by `equal`: `cls` is extended
when they are made. A number without entry in `operandMap` keeps the operand (`if(rhs)`). -/
def mapArg [DecidableEq C] (vals : List (Opd C × Nat)) (g : GSt Op C) : Opd C → Opd C
  | .cst c => .cst c
  | .inst x =>
    match (g.cls x).orElse (fun _ => (vals.find? (fun e => decide (e.1 = .inst x))).map Prod.snd) with
    | none => .inst x
    | some k => (g.om k).getD (.inst x)

/-- decisions of the pass that do not matter for correctness: block frequencies (GVN.cpp:195-203), what the target supports
(`isNativeSupported`, :206, :241), and whether an instruction may be executed speculatively (`isMovableExpr(inst, true)` and not a call, :209-212) -/
structure GvnCfg (Op C : Type) where
  blocks : List Nat
  lca : Nat → Nat → Option Nat
  dominate : Nat → Nat → Bool
  profitable : Nat → Bool
  native : Op → Bool
  spec : Op → List (Opd C) → Bool

/-- an unused id for a new instruction -/
def Func.freshId (F : Func Op C) : Nat := F.allIds.foldl max 0 + 1

/-- replace all members by the representative (GVN.cpp:238-250) -/
def gvnReplace (cfg : GvnCfg Op C) (id r : Nat) (insts : List Nat) (g : GSt Op C) : GSt Op C :=
  let g := { g with om := fun k => if k = id then some (.inst r) else g.om k }
  match g.F.inst? r with
  | none => g
  | some i =>
    if cfg.native i.op then { g with F := insts.foldl (fun F x => if x = r then F else F.replace x (.inst r)) g.F }
    else g

/-- one value class (GVN.cpp:164-251) -/
def gvnClass [DecidableEq C] (cfg : GvnCfg Op C) (vals : List (Opd C × Nat)) (insts : Nat → List Nat) (g : GSt Op C) (id : Nat) : GSt Op C :=
  match insts id with
  | [] => g
  | [x] => { g with om := fun k => if k = id then some (.inst x) else g.om k }
  | x :: y :: xs =>
    match lcaAll cfg.lca ((x :: y :: xs).filterMap g.F.home) with
    | none => g
    | some b =>
      match (x :: y :: xs).find? (fun z => decide (g.F.home z = some b)) with
      | some r => gvnReplace cfg id r (x :: y :: xs) g
      | none =>
        match g.F.inst? x with
        | none => g
        | some base =>
          if cfg.profitable id && cfg.native base.op && cfg.spec base.op base.args &&
              (instIds base.args).all (fun y => match g.F.home y with | some d => cfg.dominate d b | none => true) then
            let z := g.F.freshId
            gvnReplace cfg id z (x :: y :: xs)
              { g with F := g.F.insertEnd b ⟨z, base.op, base.args.map (mapArg vals g)⟩, cls := fun w => if w = z then some id else g.cls w }
          else g

/-- `GVN::run` (GVN.cpp:72-254) -/
def gvn [DecidableEq Op] [DecidableEq C] (mv : Op → Bool) (cfg : GvnCfg Op C) (F : Func Op C) : Option (Func Op C) :=
  let lin := linear cfg.blocks F
  match numberAll mv F (lin.length + 2) lin ⟨0, [], []⟩ with
  | none => none
  | some st =>
    let insts := fun id => lin.filter (fun x => (F.movable? mv (.inst x)).isSome && decide (st.cls x = some id))
    let om : Nat → Option (Opd C) := fun k => (st.vals.find? (fun e => e.2 == k)).map Prod.fst
    some ((List.range st.alloc).foldl (gvnClass cfg st.vals insts) ⟨F, st.cls, om⟩).F

/-- what GVN relies on from the dominator tree (`C29_dominate`, `C29_lca`, `C29_blocks_order`) -/
structure DomOk (F : Func Op C) (blocks : List Nat) (lca : Nat → Nat → Option Nat) (dominate : Nat → Nat → Bool) : Prop where
  nodup : blocks.Nodup
  live : ∀ b, b ∈ blocks ↔ Live F b
  order : ∀ (a b i j : Nat), blocks[i]? = some a → blocks[j]? = some b → Domi F a b → i ≤ j
  lca : ∀ a b, Live F a → Live F b → ∃ c, lca a b = some c ∧ Domi F c a ∧ Domi F c b
  dom : ∀ a b, dominate a b = true → Live F b ∧ Domi F a b

/-! ## numbering -/

theorem inst?_spec {F : Func Op C} {x : Nat} {i : Inst Op C} (h : F.inst? x = some i) : ∃ d D, F.blk d = some D ∧ i ∈ D.body ∧ i.id = x := by
  obtain ⟨B', hB', hp'⟩ := List.exists_of_findSome?_eq_some h
  obtain ⟨b', _, hb'⟩ := Func.mem_blocks.mp hB'
  obtain ⟨h1, h2⟩ := Block.inst?_mem hp'
  exact ⟨b', B', hb', h1, h2⟩

theorem Proper.inst_unique {F : Func Op C} (P : Proper F) {d e : Nat} {D E : Block Op C} (hD : F.blk d = some D) (hE : F.blk e = some E) {i j : Inst Op C}
    (hi : i ∈ D.body) (hj : j ∈ E.body) (h : i.id = j.id) : d = e ∧ i = j := by
  have h1 : DefIn F i.id d := ⟨D, hD, List.mem_append.mpr (.inr (List.mem_map.mpr ⟨i, hi, rfl⟩))⟩
  have h2 : DefIn F i.id e := h ▸ ⟨E, hE, List.mem_append.mpr (.inr (List.mem_map.mpr ⟨j, hj, rfl⟩))⟩
  have := P.home h1 h2
  subst this
  have := Option.some.inj (hD.symm.trans hE)
  subst this
  have hids := P.block_ids hD
  unfold Block.ids at hids
  rw [List.nodup_append] at hids
  exact ⟨rfl, List.inj_on_of_nodup_map hids.2.1 hi hj h⟩

theorem Proper.inst?_eq {F : Func Op C} (P : Proper F) {d : Nat} {D : Block Op C} (hD : F.blk d = some D) {i : Inst Op C} (hi : i ∈ D.body) :
    F.inst? i.id = some i := by
  have hex : ∃ j, F.inst? i.id = some j := by
    rw [← Option.isSome_iff_exists]
    unfold Func.inst?
    rw [List.findSome?_isSome_iff]
    refine ⟨D, P.listed.mem hD, ?_⟩
    unfold Block.inst?
    rw [List.find?_isSome]
    exact ⟨i, hi, by simp⟩
  obtain ⟨j, hj⟩ := hex
  obtain ⟨e, E, hE, hjm, hid⟩ := inst?_spec hj
  rw [hj, (P.inst_unique hD hE hi hjm hid.symm).2]

theorem movable?_spec {F : Func Op C} {mv : Op → Bool} {o : Opd C} {i : Inst Op C} (h : F.movable? mv o = some i) :
    o = .inst i.id ∧ mv i.op = true ∧ ∃ d D, F.blk d = some D ∧ i ∈ D.body := by
  cases o with
  | cst c => simp [Func.movable?] at h
  | inst x =>
    simp only [Func.movable?, Option.filter_eq_some_iff] at h
    obtain ⟨d, D, h1, h2, h3⟩ := inst?_spec h.1
    exact ⟨by rw [h3], h.2, d, D, h1, h2⟩

/-- `k` is the number of `o` -/
def HasNum (st : NumSt Op C) (o : Opd C) (k : Nat) : Prop := (∃ c ∈ st.classes, c.id = k ∧ ∃ x ∈ c.mem, o = .inst x) ∨ (o, k) ∈ st.vals

/-- numbers are only added -/
def NumLe (st st' : NumSt Op C) : Prop := (∀ c ∈ st.classes, ∃ c' ∈ st'.classes, c'.id = c.id ∧ ∀ x ∈ c.mem, x ∈ c'.mem) ∧ ∀ e ∈ st.vals, e ∈ st'.vals

theorem NumLe.refl (st : NumSt Op C) : NumLe st st := ⟨fun c hc => ⟨c, hc, rfl, fun _ h => h⟩, fun _ h => h⟩
theorem NumLe.trans {a b c : NumSt Op C} (h : NumLe a b) (h' : NumLe b c) : NumLe a c := by
  refine ⟨fun x hx => ?_, fun e he => h'.2 e (h.2 e he)⟩
  obtain ⟨y, hy, e1, m1⟩ := h.1 x hx
  obtain ⟨z, hz, e2, m2⟩ := h'.1 y hy
  exact ⟨z, hz, e2.trans e1, fun w hw => m2 w (m1 w hw)⟩

theorem HasNum.mono {a b : NumSt Op C} (h : NumLe a b) {o : Opd C} {k : Nat} (hk : HasNum a o k) : HasNum b o k := by
  rcases hk with ⟨c, hc, e, x, hx, rfl⟩ | hv
  · obtain ⟨c', hc', e', hm⟩ := h.1 c hc
    exact .inl ⟨c', hc', e'.trans e, x, hm x hx, rfl⟩
  · exact .inr (h.2 _ hv)

/-- the tables are consistent -/
structure NInv (F : Func Op C) (mv : Op → Bool) (st : NumSt Op C) : Prop where
  nodup : (st.classes.map Cls.id ++ st.vals.map Prod.snd).Nodup
  lt : ∀ k ∈ st.classes.map Cls.id ++ st.vals.map Prod.snd, k < st.alloc
  one : ∀ c ∈ st.classes, ∀ c' ∈ st.classes, ∀ x, x ∈ c.mem → x ∈ c'.mem → c.id = c'.id
  key : ∀ c ∈ st.classes, ∀ x ∈ c.mem, ∃ d D i, F.blk d = some D ∧ i ∈ D.body ∧ i.id = x ∧ mv i.op = true ∧ Live F d ∧ i.op = c.key.1 ∧
    List.Forall₂ (HasNum st) i.args c.key.2

/-- a movable instruction outside unreachable code -/
def Wanted (F : Func Op C) (mv : Op → Bool) (o : Opd C) : Prop := ∀ i, F.movable? mv o = some i → ∃ d D, F.blk d = some D ∧ i ∈ D.body ∧ Live F d

theorem wanted_args {F : Func Op C} (P : Proper F) {mv : Op → Bool} {d : Nat} {D : Block Op C} (hD : F.blk d = some D) (hl : Live F d) {i : Inst Op C} (hi : i ∈ D.body)
    {a : Opd C} (ha : a ∈ i.args) : Wanted F mv a := by
  intro j hj
  obtain ⟨e, _, d', D', hD', hj'⟩ := movable?_spec hj
  subst e
  refine ⟨d', D', hD', hj', ?_⟩
  have : DefIn F j.id d' := ⟨D', hD', List.mem_append.mpr (.inr (List.mem_map.mpr ⟨j, hj', rfl⟩))⟩
  exact (P.useDom d D j.id d' hD hl (.inl ⟨i, hi, ha⟩) this).live hl

/-- what a successful numbering step gives -/
def NumPost (F : Func Op C) (mv : Op → Bool) (st : NumSt Op C) (o : Opd C) (r : Nat × NumSt Op C) : Prop := NInv F mv r.2 ∧ NumLe st r.2 ∧ HasNum r.2 o r.1

variable [DecidableEq Op] [DecidableEq C]

theorem numVal_post {F : Func Op C} {mv : Op → Bool} {st : NumSt Op C} (I : NInv F mv st) (o : Opd C) : NumPost F mv st o (numVal o st) := by
  unfold numVal
  split
  · rename_i e he
    have h1 := List.mem_of_find?_eq_some he
    have h2 := List.find?_some he
    simp only [decide_eq_true_eq] at h2
    exact ⟨I, .refl st, .inr (by rw [← h2]; exact h1)⟩
  · refine ⟨⟨?_, ?_, I.one, ?_⟩, ⟨fun c hc => ⟨c, hc, rfl, fun _ h => h⟩, fun e he => by simp [he]⟩, .inr (by simp)⟩
    · have h := I.nodup
      have hl := I.lt
      simp only [List.map_cons]
      rw [List.nodup_append] at h ⊢
      refine ⟨h.1, List.nodup_cons.mpr ⟨fun hm => ?_, h.2.1⟩, ?_⟩
      · exact absurd (hl st.alloc (List.mem_append.mpr (.inr hm))) (by simp)
      · rintro a ha b hb rfl
        rcases List.mem_cons.mp hb with rfl | hb
        · exact absurd (hl st.alloc (List.mem_append.mpr (.inl ha))) (by simp)
        · exact h.2.2 a ha a hb rfl
    · intro k hk
      simp only [List.map_cons, List.mem_append, List.mem_cons] at hk
      rcases hk with hk | rfl | hk
      · exact Nat.lt_succ_of_lt (I.lt k (List.mem_append.mpr (.inl hk)))
      · exact Nat.lt_succ_self _
      · exact Nat.lt_succ_of_lt (I.lt k (List.mem_append.mpr (.inr hk)))
    · intro c hc x hx
      obtain ⟨d, D, i, h1, h2, h3, h4, h5, h6, h7⟩ := I.key c hc x hx
      have le : NumLe st { st with alloc := st.alloc + 1, vals := (o, st.alloc) :: st.vals } := ⟨fun c hc => ⟨c, hc, rfl, fun _ h => h⟩, fun e he => by simp [he]⟩
      exact ⟨d, D, i, h1, h2, h3, h4, h5, h6, h7.imp (fun _ _ h => h.mono le)⟩

theorem numArgs_post {F : Func Op C} {mv : Op → Bool} {rec : Opd C → NumSt Op C → Option (Nat × NumSt Op C)}
    (hrec : ∀ o st r, NInv F mv st → Wanted F mv o → rec o st = some r → NumPost F mv st o r) : ∀ (as : List (Opd C)) (st : NumSt Op C) {r}, NInv F mv st →
    (∀ a ∈ as, Wanted F mv a) → numArgs rec as st = some r → NInv F mv r.2 ∧ NumLe st r.2 ∧ List.Forall₂ (HasNum r.2) as r.1 := by
  intro as
  induction as with
  | nil => intro st r I _ h; simp only [numArgs, Option.some.injEq] at h; subst h; exact ⟨I, .refl st, .nil⟩
  | cons a as ih =>
    intro st r I hw h
    simp only [numArgs] at h
    split at h
    · simp at h
    · rename_i k st1 h1
      split at h
      · simp at h
      · rename_i ks st2 h2
        simp only [Option.some.injEq] at h
        subst h
        obtain ⟨i1, l1, n1⟩ := hrec a st _ I (hw a (by simp)) h1
        obtain ⟨i2, l2, n2⟩ := ih st1 i1 (fun b hb => hw b (by simp [hb])) h2
        exact ⟨i2, l1.trans l2, .cons (n1.mono l2) n2⟩

theorem numInst_post {F : Func Op C} (P : Proper F) {mv : Op → Bool} {rec : Opd C → NumSt Op C → Option (Nat × NumSt Op C)}
    (hrec : ∀ o st r, NInv F mv st → Wanted F mv o → rec o st = some r → NumPost F mv st o r) {i : Inst Op C} {st : NumSt Op C} {r : Nat × NumSt Op C}
    (I : NInv F mv st) {d : Nat} {D : Block Op C} (hD : F.blk d = some D) (hi : i ∈ D.body) (hl : Live F d) (hop : mv i.op = true)
    (h : numInst rec i st = some r) : NumPost F mv st (.inst i.id) r := by
  unfold numInst at h
  split at h
  · simp at h
  · rename_i ks st1 h1
    obtain ⟨i1, l1, n1⟩ := numArgs_post hrec i.args st I (fun a ha => wanted_args P hD hl hi ha) h1
    simp only at i1 l1 n1
    split at h
    · rename_i c hc
      simp only [Option.some.injEq] at h
      subst h
      have hm := List.find?_some hc
      simp only [decide_eq_true_eq] at hm
      exact ⟨i1, l1, .inl ⟨c, List.mem_of_find?_eq_some hc, rfl, _, hm, rfl⟩⟩
    · rename_i hnone
      have hnot : ∀ c ∈ st1.classes, i.id ∉ c.mem := by
        intro c hc hm
        exact absurd (List.find?_eq_none.mp hnone c hc) (by simp [hm])
      split at h
      · rename_i c hc
        simp only [Option.some.injEq] at h
        subst h
        have hcm := List.mem_of_find?_eq_some hc
        have hkey := List.find?_some hc
        simp only [decide_eq_true_eq] at hkey
        set st2 : NumSt Op C := { st1 with classes := st1.classes.map (fun d => if d.id = c.id then { d with mem := i.id :: d.mem } else d) } with hst2
        have le : NumLe st1 st2 := by
          refine ⟨fun e he => ⟨_, List.mem_map.mpr ⟨e, he, rfl⟩, ?_, ?_⟩, fun _ h => h⟩
          · split <;> rfl
          · intro x hx; split
            · simp [hx]
            · exact hx
        have hids : st2.classes.map Cls.id = st1.classes.map Cls.id := by
          simp only [hst2, List.map_map]
          congr 1
          funext e
          simp only [Function.comp]
          split <;> rfl
        -- classes with equal ids are equal
        have hcls : ∀ e ∈ st1.classes, e.id = c.id → e = c := by
          intro e he hid
          have hn := i1.nodup
          rw [List.nodup_append] at hn
          exact List.inj_on_of_nodup_map hn.1 he hcm hid
        have hmem2 : ∀ e ∈ st2.classes, (e ∈ st1.classes ∧ e.id ≠ c.id) ∨ e = { c with mem := i.id :: c.mem } := by
          intro e he
          simp only [hst2] at he
          obtain ⟨e', he', rfl⟩ := List.mem_map.mp he
          by_cases hid : e'.id = c.id
          · rw [if_pos hid, hcls e' he' hid]; exact .inr rfl
          · rw [if_neg hid]; exact .inl ⟨he', hid⟩
        refine ⟨⟨?_, ?_, ?_, ?_⟩, l1.trans le, ?_⟩
        · rw [hids]; exact i1.nodup
        · rw [hids]; exact i1.lt
        · intro e he e' he' x hx hx'
          rcases hmem2 e he with ⟨h1, h2⟩ | rfl <;> rcases hmem2 e' he' with ⟨h1', h2'⟩ | rfl
          · exact i1.one e h1 e' h1' x hx hx'
          · rcases List.mem_cons.mp hx' with rfl | hx'
            · exact absurd hx (hnot e h1)
            · exact i1.one e h1 c hcm x hx hx'
          · rcases List.mem_cons.mp hx with rfl | hx
            · exact absurd hx' (hnot e' h1')
            · exact i1.one c hcm e' h1' x hx hx'
          · rfl
        · intro e he x hx
          rcases hmem2 e he with ⟨h1, h2⟩ | rfl
          · obtain ⟨d', D', j, a1, a2, a3, a4, a5, a6, a7⟩ := i1.key e h1 x hx
            exact ⟨d', D', j, a1, a2, a3, a4, a5, a6, a7.imp (fun _ _ h => h.mono le)⟩
          · rcases List.mem_cons.mp hx with rfl | hx
            · refine ⟨d, D, i, hD, hi, rfl, hop, hl, by rw [hkey], ?_⟩
              simp only [hkey]
              exact n1.imp (fun _ _ h => h.mono le)
            · obtain ⟨d', D', j, a1, a2, a3, a4, a5, a6, a7⟩ := i1.key c hcm x hx
              exact ⟨d', D', j, a1, a2, a3, a4, a5, a6, a7.imp (fun _ _ h => h.mono le)⟩
        · refine .inl ⟨{ c with mem := i.id :: c.mem }, ?_, rfl, i.id, by simp, rfl⟩
          simp only [hst2]
          exact List.mem_map.mpr ⟨c, hcm, by simp⟩
      · simp only [Option.some.injEq] at h
        subst h
        set st2 : NumSt Op C := { st1 with alloc := st1.alloc + 1, classes := st1.classes ++ [⟨st1.alloc, (i.op, ks), [i.id]⟩] } with hst2
        have le : NumLe st1 st2 := ⟨fun e he => ⟨e, by simp [hst2, he], rfl, fun _ h => h⟩, fun _ h => h⟩
        have hmem2 : ∀ e ∈ st2.classes, e ∈ st1.classes ∨ e = ⟨st1.alloc, (i.op, ks), [i.id]⟩ := by
          intro e he
          simpa [hst2] using he
        refine ⟨⟨?_, ?_, ?_, ?_⟩, l1.trans le, ?_⟩
        · have hn := i1.nodup
          have hlt := i1.lt
          simp only [hst2, List.map_append, List.map_cons, List.map_nil]
          rw [List.nodup_append] at hn ⊢
          refine ⟨?_, hn.2.1, ?_⟩
          · rw [List.nodup_append]
            refine ⟨hn.1, by simp, ?_⟩
            rintro a ha b hb rfl
            simp only [List.mem_singleton] at hb
            subst hb
            exact absurd (hlt _ (List.mem_append.mpr (.inl ha))) (by simp)
          · rintro a ha b hb rfl
            rcases List.mem_append.mp ha with ha | ha
            · exact hn.2.2 a ha a hb rfl
            · simp only [List.mem_singleton] at ha
              subst ha
              exact absurd (hlt _ (List.mem_append.mpr (.inr hb))) (by simp)
        · intro k hk
          simp only [hst2, List.map_append, List.map_cons, List.map_nil, List.mem_append, List.mem_singleton] at hk
          rcases hk with (hk | rfl) | hk
          · exact Nat.lt_succ_of_lt (i1.lt k (List.mem_append.mpr (.inl hk)))
          · exact Nat.lt_succ_self _
          · exact Nat.lt_succ_of_lt (i1.lt k (List.mem_append.mpr (.inr hk)))
        · intro e he e' he' x hx hx'
          rcases hmem2 e he with h1 | rfl <;> rcases hmem2 e' he' with h1' | rfl
          · exact i1.one e h1 e' h1' x hx hx'
          · simp only [List.mem_singleton] at hx'
            subst hx'
            exact absurd hx (hnot e h1)
          · simp only [List.mem_singleton] at hx
            subst hx
            exact absurd hx' (hnot e' h1')
          · rfl
        · intro e he x hx
          rcases hmem2 e he with h1 | rfl
          · obtain ⟨d', D', j, a1, a2, a3, a4, a5, a6, a7⟩ := i1.key e h1 x hx
            exact ⟨d', D', j, a1, a2, a3, a4, a5, a6, a7.imp (fun _ _ h => h.mono le)⟩
          · simp only [List.mem_singleton] at hx
            subst hx
            exact ⟨d, D, i, hD, hi, rfl, hop, hl, rfl, n1.imp (fun _ _ h => h.mono le)⟩
        · exact .inl ⟨_, List.mem_append.mpr (.inr (List.mem_singleton.mpr rfl)), rfl, i.id, by simp, rfl⟩

theorem getNumber_post {F : Func Op C} (P : Proper F) {mv : Op → Bool} : ∀ (n : Nat) (o : Opd C) (st : NumSt Op C) (r), NInv F mv st → Wanted F mv o →
    getNumber mv F n o st = some r → NumPost F mv st o r := by
  intro n
  induction n with
  | zero => intro o st r _ _ h; simp [getNumber] at h
  | succ n ih =>
    intro o st r I hw h
    simp only [getNumber] at h
    split at h
    · rename_i i hi
      obtain ⟨e, hop, _⟩ := movable?_spec hi
      subst e
      obtain ⟨d, D, hD, him, hl⟩ := hw i hi
      exact numInst_post P ih I hD him hl hop h
    · simp only [Option.some.injEq] at h
      subst h
      exact numVal_post I o


theorem numberAll_post {F : Func Op C} (P : Proper F) {mv : Op → Bool} {fuel : Nat} : ∀ (xs : List Nat) (st : NumSt Op C) {r}, NInv F mv st →
    (∀ x ∈ xs, Wanted F mv (.inst x)) → numberAll mv F fuel xs st = some r → NInv F mv r := by
  intro xs
  induction xs with
  | nil => intro st r I _ h; simp only [numberAll, Option.some.injEq] at h; exact h ▸ I
  | cons x xs ih =>
    intro st r I hw h
    simp only [numberAll] at h
    split at h
    · exact ih st I (fun y hy => hw y (by simp [hy])) h
    · split at h
      · simp at h
      · rename_i k st' h'
        exact ih st' (getNumber_post P _ _ _ _ I (hw x (by simp)) h').1 (fun y hy => hw y (by simp [hy])) h

theorem nInv_start (F : Func Op C) (mv : Op → Bool) : NInv F mv ⟨0, [], []⟩ := by
  refine ⟨by simp, by simp, by simp, by simp⟩

omit [DecidableEq Op] [DecidableEq C] in
theorem cls_of_mem {F : Func Op C} {mv : Op → Bool} {st : NumSt Op C} (I : NInv F mv st) {c : Cls Op} (hc : c ∈ st.classes) {x : Nat} (hx : x ∈ c.mem) :
    st.cls x = some c.id := by
  unfold NumSt.cls
  cases h : st.classes.find? (fun c => decide (x ∈ c.mem)) with
  | none => exact absurd (List.find?_eq_none.mp h c hc) (by simp [hx])
  | some c' =>
    have h1 := List.mem_of_find?_eq_some h
    have h2 := List.find?_some h
    simp only [decide_eq_true_eq] at h2
    rw [Option.map_some, I.one c' h1 c hc x h2 hx]

omit [DecidableEq Op] [DecidableEq C] in
theorem mem_of_cls {st : NumSt Op C} {x k : Nat} (h : st.cls x = some k) : ∃ c ∈ st.classes, c.id = k ∧ x ∈ c.mem := by
  unfold NumSt.cls at h
  obtain ⟨c, h1, h2⟩ := Option.map_eq_some_iff.mp h
  have h3 := List.find?_some h1
  simp only [decide_eq_true_eq] at h3
  exact ⟨c, List.mem_of_find?_eq_some h1, h2, h3⟩

omit [DecidableEq Op] [DecidableEq C] in
/-- operands with the same number -/
theorem hasNum_same {F : Func Op C} {mv : Op → Bool} {st : NumSt Op C} (I : NInv F mv st) {a b : Opd C} {k : Nat} (ha : HasNum st a k) (hb : HasNum st b k) :
    SameNum st.cls a b := by
  have hn := I.nodup
  rw [List.nodup_append] at hn
  rcases ha with ⟨c, hc, e, x, hx, rfl⟩ | hv <;> rcases hb with ⟨c', hc', e', x', hx', rfl⟩ | hv'
  · exact .inr ⟨x, x', k, rfl, rfl, e ▸ cls_of_mem I hc hx, e' ▸ cls_of_mem I hc' hx'⟩
  · exact absurd rfl (hn.2.2 k (List.mem_map.mpr ⟨c, hc, e⟩) k (List.mem_map.mpr ⟨_, hv', rfl⟩))
  · exact absurd rfl (hn.2.2 k (List.mem_map.mpr ⟨c', hc', e'⟩) k (List.mem_map.mpr ⟨_, hv, rfl⟩))
  · have := List.inj_on_of_nodup_map hn.2.1 hv hv' rfl
    exact .inl (Prod.mk.inj this).1

omit [DecidableEq Op] [DecidableEq C] in
theorem forall_hasNum {F : Func Op C} {mv : Op → Bool} {st : NumSt Op C} (I : NInv F mv st) : ∀ {as bs : List (Opd C)} {ks : List Nat},
    List.Forall₂ (HasNum st) as ks → List.Forall₂ (HasNum st) bs ks → List.Forall₂ (SameNum st.cls) as bs := by
  intro as bs ks h
  induction h generalizing bs with
  | nil => intro h'; cases h'; exact .nil
  | cons h1 _ ih =>
    intro h'
    cases h' with
    | cons h1' h2' => exact .cons (hasNum_same I h1 h1') (ih h2')

omit [DecidableEq Op] [DecidableEq C] in
theorem nInv_consistent {F : Func Op C} (P : Proper F) {mv : Op → Bool} {st : NumSt Op C} (I : NInv F mv st) : Consistent F mv st.cls := by
  refine ⟨?_, ?_⟩
  · intro x k hx
    obtain ⟨c, hc, _, hm⟩ := mem_of_cls hx
    obtain ⟨d, D, i, h1, h2, h3, h4, h5, _⟩ := I.key c hc x hm
    exact ⟨d, D, i, h1, h2, h3, h4, h5⟩
  · intro x y k d D i e E j hx hy hD hi hix hE hj hjy
    obtain ⟨c, hc, e1, hm⟩ := mem_of_cls hx
    obtain ⟨c', hc', e2, hm'⟩ := mem_of_cls hy
    have hn := I.nodup
    rw [List.nodup_append] at hn
    have := List.inj_on_of_nodup_map hn.1 hc hc' (e1.trans e2.symm)
    subst this
    obtain ⟨d1, D1, i1, a1, a2, a3, _, _, a6, a7⟩ := I.key c hc x hm
    obtain ⟨d2, D2, i2, b1, b2, b3, _, _, b6, b7⟩ := I.key c hc y hm'
    obtain ⟨_, rfl⟩ := P.inst_unique hD a1 hi a2 (by rw [hix, a3])
    obtain ⟨_, rfl⟩ := P.inst_unique hE b1 hj b2 (by rw [hjy, b3])
    exact ⟨a6.trans b6.symm, forall_hasNum I a7 b7⟩

/-! ### the fuel is enough -/
omit [DecidableEq Op] [DecidableEq C]

theorem mem_linear {blocks : List Nat} {F : Func Op C} {x : Nat} : x ∈ linear blocks F ↔ ∃ b ∈ blocks, ∃ B, F.blk b = some B ∧ ∃ i ∈ B.body, i.id = x := by
  unfold linear
  rw [List.mem_flatMap]
  constructor
  · rintro ⟨b, hb, h⟩
    split at h
    · rename_i B hB
      obtain ⟨i, hi, e⟩ := List.mem_map.mp h
      exact ⟨b, hb, B, hB, i, hi, e⟩
    · simp at h
  · rintro ⟨b, hb, B, hB, i, hi, e⟩
    exact ⟨b, hb, by rw [hB]; exact List.mem_map.mpr ⟨i, hi, e⟩⟩

theorem linear_nodup {F : Func Op C} (P : Proper F) {blocks : List Nat} (hn : blocks.Nodup) : (linear blocks F).Nodup := by
  unfold linear
  rw [List.nodup_flatMap]
  constructor
  · intro b _
    split
    · rename_i B hB
      have hids := P.block_ids hB
      unfold Block.ids at hids
      rw [List.nodup_append] at hids
      exact hids.2.1
    · exact List.nodup_nil
  · refine hn.imp ?_
    intro a b hab x hx hy
    simp only at hx hy
    split at hx
    · rename_i A hA
      split at hy
      · rename_i B hB
        exact hab (P.home ⟨A, hA, List.mem_append.mpr (.inr hx)⟩ ⟨B, hB, List.mem_append.mpr (.inr hy)⟩)
      · simp at hy
    · simp at hx

/-- operands come before their users -/
theorem linear_before {F : Func Op C} (P : Proper F) {blocks : List Nat} {lca : Nat → Nat → Option Nat} {dominate : Nat → Nat → Bool} (hd : DomOk F blocks lca dominate)
    {d e : Nat} {D E : Block Op C} {i j : Inst Op C} (hl : Live F d) (hD : F.blk d = some D) (hi : i ∈ D.body) (hE : F.blk e = some E) (hj : j ∈ E.body)
    (ha : Opd.inst j.id ∈ i.args) {n : Nat} (hx : i.id ∈ (linear blocks F).take (n + 1)) : j.id ∈ (linear blocks F).take n := by
  have hdj : DefIn F j.id e := ⟨E, hE, List.mem_append.mpr (.inr (List.mem_map.mpr ⟨j, hj, rfl⟩))⟩
  have hdom := P.useDom d D j.id e hD hl (.inl ⟨i, hi, ha⟩) hdj
  have hle := hdom.live hl
  obtain ⟨b1, b2, hb⟩ := List.append_of_mem ((hd.live d).mpr hl)
  obtain ⟨pre, post, hp⟩ := List.append_of_mem hi
  have hlin : linear blocks F = (linear b1 F ++ pre.map Inst.id) ++ i.id :: (post.map Inst.id ++ linear b2 F) := by
    unfold linear
    rw [hb]
    simp only [List.flatMap_append, List.flatMap_cons, hD]
    rw [hp]
    simp
  have hjm : j.id ∈ linear b1 F ++ pre.map Inst.id := by
    by_cases hed : e = d
    · subst hed
      have := Option.some.inj (hE.symm.trans hD)
      subst this
      rcases (P.inOrder e E hE).1 pre i post hp j.id ha (List.mem_append.mpr (.inr (List.mem_map.mpr ⟨j, hj, rfl⟩))) with h | h
      · obtain ⟨p, hp', he⟩ := List.mem_map.mp h
        exact absurd he (P.phi_ne_inst hD hD hp' hj)
      · exact List.mem_append.mpr (.inr h)
    · refine List.mem_append.mpr (.inl (mem_linear.mpr ⟨e, ?_, E, hE, j, hj, rfl⟩))
      have hm := (hd.live e).mpr hle
      obtain ⟨k, hk⟩ := List.getElem?_of_mem hm
      have h1 : blocks[b1.length]? = some d := by rw [hb]; simp
      have hle' := hd.order e d k b1.length hk h1 hdom
      have hlt : k < b1.length := by
        rcases Nat.lt_or_ge k b1.length with h | h
        · exact h
        · have : k = b1.length := by omega
          subst this
          rw [h1] at hk
          exact absurd (Option.some.inj hk).symm hed
      rw [hb, List.getElem?_append_left hlt] at hk
      exact List.mem_of_getElem? hk
  -- the position of `i`
  have hn := linear_nodup P hd.nodup
  rw [hlin] at hn hx ⊢
  have hlen : (linear b1 F ++ pre.map Inst.id).length ≤ n := by
    by_contra hc
    rw [List.take_append_of_le_length (by omega)] at hx
    rw [List.nodup_append] at hn
    exact hn.2.2 i.id (List.mem_of_mem_take hx) i.id (by simp) rfl
  rw [List.take_append, List.take_of_length_le hlen]
  exact List.mem_append.mpr (.inl hjm)

variable [DecidableEq Op] [DecidableEq C]

theorem numArgs_some {rec : Opd C → NumSt Op C → Option (Nat × NumSt Op C)} : ∀ (as : List (Opd C)) (st : NumSt Op C), (∀ a ∈ as, ∀ st, ∃ r, rec a st = some r) →
    ∃ r, numArgs rec as st = some r := by
  intro as
  induction as with
  | nil => intro st _; exact ⟨_, rfl⟩
  | cons a as ih =>
    intro st h
    obtain ⟨⟨k, st1⟩, h1⟩ := h a (by simp) st
    obtain ⟨⟨ks, st2⟩, h2⟩ := ih st1 (fun b hb => h b (by simp [hb]))
    exact ⟨(k :: ks, st2), by simp [numArgs, h1, h2]⟩

theorem numInst_some {rec : Opd C → NumSt Op C → Option (Nat × NumSt Op C)} {i : Inst Op C} {st : NumSt Op C} (h : ∀ a ∈ i.args, ∀ st, ∃ r, rec a st = some r) :
    ∃ r, numInst rec i st = some r := by
  obtain ⟨⟨ks, st1⟩, h1⟩ := numArgs_some i.args st h
  unfold numInst
  rw [h1]
  simp only
  split
  · exact ⟨_, rfl⟩
  · split <;> exact ⟨_, rfl⟩

theorem getNumber_some {F : Func Op C} (P : Proper F) {mv : Op → Bool} {blocks : List Nat} {lca : Nat → Nat → Option Nat} {dominate : Nat → Nat → Bool}
    (hd : DomOk F blocks lca dominate) : ∀ (n : Nat) (o : Opd C) (st : NumSt Op C), Wanted F mv o → (∀ i, F.movable? mv o = some i → i.id ∈ (linear blocks F).take n) →
    ∃ r, getNumber mv F (n + 1) o st = some r := by
  intro n
  induction n with
  | zero =>
    intro o st _ h
    simp only [getNumber]
    cases hm : F.movable? mv o with
    | none => exact ⟨_, rfl⟩
    | some i => exact absurd (h i hm) (by simp)
  | succ n ih =>
    intro o st hw h
    simp only [getNumber]
    cases hm : F.movable? mv o with
    | none => exact ⟨_, rfl⟩
    | some i =>
      simp only
      obtain ⟨d, D, hD, hi, hl⟩ := hw i hm
      refine numInst_some (fun a ha st => ?_)
      have hwa : Wanted F mv a := wanted_args P hD hl hi ha
      refine ih a st hwa ?_
      intro j hj
      obtain ⟨e, _, d', D', hD', hj'⟩ := movable?_spec hj
      subst e
      exact linear_before P hd hl hD hi hD' hj' ha (h i hm)

theorem numberAll_some {F : Func Op C} (P : Proper F) {mv : Op → Bool} {blocks : List Nat} {lca : Nat → Nat → Option Nat} {dominate : Nat → Nat → Bool}
    (hd : DomOk F blocks lca dominate) : ∀ (xs : List Nat) (st : NumSt Op C), (∀ x ∈ xs, x ∈ linear blocks F ∧ Wanted F mv (.inst x)) →
    ∃ r, numberAll mv F ((linear blocks F).length + 2) xs st = some r := by
  intro xs
  induction xs with
  | nil => intro st _; exact ⟨st, rfl⟩
  | cons x xs ih =>
    intro st h
    simp only [numberAll]
    split
    · exact ih st (fun y hy => h y (by simp [hy]))
    · obtain ⟨⟨k, st'⟩, h'⟩ := getNumber_some P hd ((linear blocks F).length + 1) (.inst x) st (h x (by simp)).2 (by
        intro i hi
        obtain ⟨e, _⟩ := movable?_spec hi
        simp only [Opd.inst.injEq] at e
        rw [← e, List.take_of_length_le (by omega)]
        exact (h x (by simp)).1)
      rw [show (linear blocks F).length + 1 + 1 = (linear blocks F).length + 2 from rfl] at h'
      rw [h']
      exact ih st' (fun y hy => h y (by simp [hy]))

end
end Cmmc.SSA
