import Mathlib.Data.List.Nodup
import Mathlib.Tactic.Linarith
/-!
# Prologue/epilogue insertion (cmmc/CodeGen/FrameInfo.cpp:21-57) and removal of unread spill slots (StackAllocation.cpp:308-330)

A machine function is a list of blocks (block 0 is the entry). Instructions are stores/loads between registers and stack slots (the
pseudo instructions `InstStoreRegToStack`/`InstLoadRegFromStack`) and arbitrary other instructions, given by their effect on the
registers and on the rest of the machine state `σ` (memory, output, ...) together with the list of registers they define. Slots are
separate from `σ`: C18 shows that they do not overlap any other object. The target-specific part (lowering the pseudo
instructions and adjusting `sp`) is not modelled; ARM uses its own version with push/pop, which is not modelled either.
-/
namespace Cmmc.Prologue

variable {σ : Type}

/-- registers are numbers; 64-bit values are left abstract as integers -/
structure St (σ : Type) where
  regs : Nat → Int
  slots : Nat → Int
  rest : σ

/-- machine instructions (MIRInst); `op defs f` is any instruction but the two stack pseudo instructions -/
inductive Inst (σ : Type)
  | store (reg slot : Nat)
  | load (reg slot : Nat)
  | op (defs : List Nat) (f : (Nat → Int) → σ → (Nat → Int) × σ)

/-- registers defined by an instruction (`forEachDefOperands`, CodeGenUtils.cpp) -/
def Inst.defs : Inst σ → List Nat
  | .store _ _ => []
  | .load r _ => [r]
  | .op d _ => d

def upd (f : Nat → Int) (k : Nat) (v : Int) : Nat → Int := fun x => if x = k then v else f x

/-- effect of one instruction -/
def Inst.exec (i : Inst σ) (s : St σ) : St σ :=
  match i with
  | .store r k => { s with slots := upd s.slots k (s.regs r) }
  | .load r k => { s with regs := upd s.regs r (s.slots k) }
  | .op _ f => let p := f s.regs s.rest; { s with regs := p.1, rest := p.2 }

/-- a basic block: `insts` without the terminator; the terminator is a return or a jump whose target may depend on the state -/
structure Block (σ : Type) where
  insts : List (Inst σ)
  isRet : Bool
  next : (Nat → Int) → σ → Nat

def execList (l : List (Inst σ)) (s : St σ) : St σ := l.foldl (fun s i => i.exec s) s

/-- `Run F b s t`: execution entering block `b` in state `s` reaches a return instruction in state `t` -/
inductive Run (F : List (Block σ)) : Nat → St σ → St σ → Prop
  | ret {b s blk} : F[b]? = some blk → blk.isRet = true → Run F b s (execList blk.insts s)
  | jump {b s t blk} : F[b]? = some blk → blk.isRet = false →
      Run F (blk.next (execList blk.insts s).regs (execList blk.insts s).rest) (execList blk.insts s) t → Run F b s t

/-! ## the code -/

/-- the registers to save paired with their new stack objects (FrameInfo.cpp:24-36). `addStackObject` (MIR.cpp) takes fresh ids,
modelled by counting up from `fresh` -/
def savedList (regs : List Nat) (nonLeaf : Bool) (ra fresh : Nat) : List (Nat × Nat) :=
  (regs ++ if nonLeaf then [ra] else []).zipIdx fresh

/-- the loop over blocks (FrameInfo.cpp:38-54); `push_front` reverses the order of the backups, restores are in reverse order -/
def insertBlock (saved : List (Nat × Nat)) (isFront : Bool) (b : Block σ) : Block σ :=
  let backup := if isFront then saved.reverse.map fun p => Inst.store p.1 p.2 else []
  let restore := if b.isRet then saved.reverse.map fun p => Inst.load p.1 p.2 else []
  { b with insts := backup ++ b.insts ++ restore }

/-- `TargetFrameInfo::insertPrologueEpilogue` (FrameInfo.cpp:21-57) -/
def insertPrologueEpilogue (saved : List (Nat × Nat)) (F : List (Block σ)) : List (Block σ) :=
  match F with
  | [] => []
  | b :: bs => insertBlock saved true b :: bs.map (insertBlock saved false)

/-- the spill slots that no instruction loads (StackAllocation.cpp:309-321) -/
def unusedSpills (spills : List Nat) (F : List (Block σ)) : List Nat :=
  spills.filter fun k => !F.any fun b => b.insts.any fun i => match i with | .load _ k' => k' == k | _ => false

/-- the predicate of `remove_if`, negated (StackAllocation.cpp:323-326) -/
def keepInst (dead : List Nat) : Inst σ → Bool
  | .store _ k => !dead.contains k
  | _ => true

/-- dead stores removed from a block (StackAllocation.cpp:322-327) -/
def dropBlock (dead : List Nat) (b : Block σ) : Block σ := { b with insts := b.insts.filter (keepInst dead) }

/-- `removeUnusedSpillStackObjects` (StackAllocation.cpp:308-330) -/
def removeUnusedSpills (spills : List Nat) (F : List (Block σ)) : List (Block σ) := F.map (dropBlock (unusedSpills spills F))

/-! ## specification -/

/-- an instruction changes no register outside its definition list -/
def Inst.Honest : Inst σ → Prop
  | .op d f => ∀ regs rest r, r ∉ d → (f regs rest).1 r = regs r
  | _ => True

/-- the slots mentioned by an instruction -/
def Inst.slot? : Inst σ → Option Nat
  | .store _ k | .load _ k => some k
  | .op _ _ => none

/-- no jump leads to the entry block -/
def EntryOnlyOnce (F : List (Block σ)) : Prop := ∀ b ∈ F, ∀ regs rest, b.next regs rest ≠ 0

/-! ## proofs -/

theorem execList_append (a b : List (Inst σ)) (s : St σ) : execList (a ++ b) s = execList b (execList a s) := by
  simp [execList]

/-- two states agree except on the slots in `fresh` -/
def Agree (fresh : Nat → Prop) (s s' : St σ) : Prop :=
  s.regs = s'.regs ∧ s.rest = s'.rest ∧ ∀ k, ¬ fresh k → s.slots k = s'.slots k

theorem exec_agree {fresh : Nat → Prop} (i : Inst σ) (hi : ∀ k, i.slot? = some k → ¬ fresh k) {s s' : St σ} (h : Agree fresh s s') :
    Agree fresh (i.exec s) (i.exec s') ∧ ∀ k, fresh k → (i.exec s').slots k = s'.slots k := by
  obtain ⟨h1, h2, h3⟩ := h
  cases i with
  | store r k =>
    have hk := hi k rfl
    refine ⟨⟨h1, h2, ?_⟩, ?_⟩
    · intro j hj
      simp only [Inst.exec, upd]
      split
      · rw [h1]
      · exact h3 j hj
    · intro j hj
      simp only [Inst.exec, upd]
      rw [if_neg]; rintro rfl; exact hk hj
  | load r k =>
    have hk := hi k rfl
    refine ⟨⟨?_, h2, h3⟩, fun _ _ => rfl⟩
    simp only [Inst.exec]
    rw [h1, h3 k hk]
  | op d f =>
    refine ⟨⟨?_, ?_, h3⟩, fun _ _ => rfl⟩ <;> simp only [Inst.exec] <;> rw [h1, h2]

theorem execList_agree {fresh : Nat → Prop} : ∀ (l : List (Inst σ)), (∀ i ∈ l, ∀ k, i.slot? = some k → ¬ fresh k) →
    ∀ {s s' : St σ}, Agree fresh s s' →
    Agree fresh (execList l s) (execList l s') ∧ ∀ k, fresh k → (execList l s').slots k = s'.slots k
  | [], _, s, s', h => ⟨h, fun _ _ => rfl⟩
  | i :: l, hl, s, s', h => by
    obtain ⟨a1, a2⟩ := exec_agree i (hl i (by simp)) h
    obtain ⟨b1, b2⟩ := execList_agree l (fun j hj => hl j (by simp [hj])) a1
    exact ⟨b1, fun k hk => by rw [show execList (i :: l) s' = execList l (i.exec s') from rfl, b2 k hk, a2 k hk]⟩

theorem stores_spec : ∀ (l : List (Nat × Nat)), (l.map Prod.snd).Nodup → ∀ s : St σ,
    let t := execList (l.map fun p => Inst.store p.1 p.2) s
    t.regs = s.regs ∧ t.rest = s.rest ∧ (∀ p ∈ l, t.slots p.2 = s.regs p.1) ∧ ∀ k, k ∉ l.map Prod.snd → t.slots k = s.slots k
  | [], _, s => ⟨rfl, rfl, by simp, fun _ _ => rfl⟩
  | p :: l, hn, s => by
    simp only [List.map_cons, List.nodup_cons] at hn
    obtain ⟨h1, h2, h3, h4⟩ := stores_spec l hn.2 ((Inst.store p.1 p.2).exec s)
    have e : execList ((p :: l).map fun p => Inst.store p.1 p.2) s = execList (l.map fun p => Inst.store p.1 p.2) ((Inst.store p.1 p.2).exec s) := rfl
    simp only [e]
    refine ⟨by rw [h1]; rfl, by rw [h2]; rfl, ?_, ?_⟩
    · intro q hq
      rcases List.mem_cons.1 hq with rfl | hq
      · rw [h4 _ hn.1]; simp [Inst.exec, upd]
      · rw [h3 q hq]; rfl
    · intro k hk
      simp only [List.map_cons, List.mem_cons, not_or] at hk
      rw [h4 k hk.2]; simp [Inst.exec, upd, hk.1]

theorem loads_spec (v : Nat → Int) : ∀ (l : List (Nat × Nat)) (s : St σ), (∀ p ∈ l, s.slots p.2 = v p.1) →
    let t := execList (l.map fun p => Inst.load p.1 p.2) s
    (∀ r, t.regs r = if r ∈ l.map Prod.fst then v r else s.regs r) ∧ t.rest = s.rest ∧ t.slots = s.slots
  | [], s, _ => ⟨by simp [execList], rfl, rfl⟩
  | p :: l, s, h => by
    obtain ⟨h1, h2, h3⟩ := loads_spec v l ((Inst.load p.1 p.2).exec s) (fun q hq => h q (by simp [hq]))
    have e : execList ((p :: l).map fun p => Inst.load p.1 p.2) s = execList (l.map fun p => Inst.load p.1 p.2) ((Inst.load p.1 p.2).exec s) := rfl
    simp only [e]
    refine ⟨?_, by rw [h2]; rfl, by rw [h3]; rfl⟩
    intro r
    rw [h1 r]
    have hp := h p (by simp)
    by_cases hr : r ∈ l.map Prod.fst
    · rw [if_pos hr, if_pos (by simp only [List.map_cons, List.mem_cons]; exact Or.inr hr)]
    · rw [if_neg hr]
      by_cases hrp : r = p.1
      · subst hrp
        rw [if_pos (by simp)]
        simp [Inst.exec, upd, hp]
      · rw [if_neg (by simp only [List.map_cons, List.mem_cons, not_or]; exact ⟨hrp, hr⟩)]
        simp [Inst.exec, upd, hrp]

theorem getElem_insert {saved : List (Nat × Nat)} {F : List (Block σ)} {b : Nat} :
    (insertPrologueEpilogue saved F)[b]? = (F[b]?).map (insertBlock saved (b == 0)) := by
  cases F with
  | nil => simp [insertPrologueEpilogue]
  | cons x xs =>
    cases b with
    | zero => simp [insertPrologueEpilogue]
    | succ b => simp [insertPrologueEpilogue]

/-- what the new code leaves at a return, given the registers at function entry (`v`) and the state the old code leaves -/
def Restored (saved : List (Nat × Nat)) (v : Nat → Int) (t t' : St σ) : Prop :=
  (∀ r, t'.regs r = if r ∈ saved.map Prod.fst then v r else t.regs r) ∧ t'.rest = t.rest ∧
  ∀ k, k ∉ saved.map Prod.snd → t'.slots k = t.slots k

theorem body_ret {saved : List (Nat × Nat)} {v : Nat → Int} {l : List (Inst σ)}
    (hl : ∀ i ∈ l, ∀ k, i.slot? = some k → ¬ k ∈ saved.map Prod.snd) {s s' : St σ}
    (h : Agree (fun k => k ∈ saved.map Prod.snd) s s') (hv : ∀ p ∈ saved, s'.slots p.2 = v p.1) :
    Restored saved v (execList l s) (execList (l ++ saved.reverse.map fun p => Inst.load p.1 p.2) s') := by
  obtain ⟨⟨a1, a2, a3⟩, a4⟩ := execList_agree l hl h
  rw [execList_append]
  obtain ⟨b1, b2, b3⟩ := loads_spec (σ := σ) v saved.reverse (execList l s') (by
    intro p hp
    rw [a4 _ (List.mem_map_of_mem (List.mem_reverse.1 hp))]
    exact hv p (List.mem_reverse.1 hp))
  refine ⟨?_, ?_, ?_⟩
  · intro r
    rw [b1 r]
    simp only [List.map_reverse, List.mem_reverse]
    rw [a1]
  · rw [b2, a2]
  · intro k hk
    rw [b3, a3 k hk]

theorem tail_fwd {saved : List (Nat × Nat)} {F : List (Block σ)} {v : Nat → Int} (honce : EntryOnlyOnce F)
    (hfresh : ∀ b ∈ F, ∀ i ∈ b.insts, ∀ k, i.slot? = some k → k ∉ saved.map Prod.snd) {b : Nat} {s t : St σ}
    (h : Run F b s t) (hb : b ≠ 0) : ∀ s', Agree (fun k => k ∈ saved.map Prod.snd) s s' → (∀ p ∈ saved, s'.slots p.2 = v p.1) →
    ∃ t', Run (insertPrologueEpilogue saved F) b s' t' ∧ Restored saved v t t' := by
  induction h with
  | @ret b s blk hF hr =>
    intro s' ha hv
    have hbf : (b == 0) = false := by simpa using hb
    have hmem : blk ∈ F := List.mem_of_getElem? hF
    refine ⟨_, Run.ret (blk := insertBlock saved false blk) (by rw [getElem_insert, hF, hbf]; rfl) hr, ?_⟩
    have e : (insertBlock saved false blk).insts = blk.insts ++ saved.reverse.map fun p => Inst.load p.1 p.2 := by
      simp [insertBlock, hr]
    rw [e]
    exact body_ret (hfresh blk hmem) ha hv
  | @jump b s t blk hF hr hrun ih =>
    intro s' ha hv
    have hbf : (b == 0) = false := by simpa using hb
    have hmem : blk ∈ F := List.mem_of_getElem? hF
    obtain ⟨a1, a2⟩ := execList_agree blk.insts (hfresh blk hmem) ha
    have e : (insertBlock saved false blk).insts = blk.insts := by simp [insertBlock, hr]
    obtain ⟨t', h1, h2⟩ := ih (honce blk hmem _ _) (execList blk.insts s') a1
      (fun p hp => by rw [a2 _ (List.mem_map_of_mem hp)]; exact hv p hp)
    refine ⟨t', Run.jump (blk := insertBlock saved false blk) (by rw [getElem_insert, hF, hbf]; rfl) hr ?_, h2⟩
    rw [e, ← a1.1, ← a1.2.1]
    exact h1

theorem run_det {F : List (Block σ)} {b : Nat} {s t t' : St σ} (h : Run F b s t) (h' : Run F b s t') : t = t' := by
  induction h with
  | ret hF hr =>
    cases h' with
    | ret hF' hr' => rw [hF] at hF'; cases hF'; rfl
    | jump hF' hr' _ => rw [hF] at hF'; cases hF'; rw [hr] at hr'; cases hr'
  | jump hF hr _ ih =>
    cases h' with
    | ret hF' hr' => rw [hF] at hF'; cases hF'; rw [hr] at hr'; cases hr'
    | jump hF' hr' h' => rw [hF] at hF'; cases hF'; exact ih h'

theorem tail_bwd {saved : List (Nat × Nat)} {F : List (Block σ)} (honce : EntryOnlyOnce F)
    (hfresh : ∀ b ∈ F, ∀ i ∈ b.insts, ∀ k, i.slot? = some k → k ∉ saved.map Prod.snd) {b : Nat} {s' t' : St σ}
    (h : Run (insertPrologueEpilogue saved F) b s' t') (hb : b ≠ 0) :
    ∀ s, Agree (fun k => k ∈ saved.map Prod.snd) s s' → ∃ t, Run F b s t := by
  induction h with
  | @ret b s' blk' hF hr =>
    intro s ha
    rw [getElem_insert, Option.map_eq_some_iff] at hF
    obtain ⟨blk, hF, rfl⟩ := hF
    exact ⟨_, Run.ret hF hr⟩
  | @jump b s' t' blk' hF hr _ ih =>
    intro s ha
    have hbf : (b == 0) = false := by simpa using hb
    rw [getElem_insert, Option.map_eq_some_iff, hbf] at hF
    obtain ⟨blk, hF, rfl⟩ := hF
    have hr : blk.isRet = false := hr
    have e : (insertBlock saved false blk).insts = blk.insts := by simp [insertBlock, hr]
    have hmem : blk ∈ F := List.mem_of_getElem? hF
    obtain ⟨a1, _⟩ := execList_agree blk.insts (hfresh blk hmem) ha
    rw [e] at ih
    obtain ⟨t, ht⟩ := ih (honce blk hmem _ _) (execList blk.insts s) a1
    refine ⟨t, Run.jump hF hr ?_⟩
    rw [a1.1, a1.2.1]
    exact ht

theorem saved_nodup (regs : List Nat) (nonLeaf : Bool) (ra fresh : Nat) :
    ((savedList regs nonLeaf ra fresh).map Prod.snd).Nodup ∧ ∀ p ∈ savedList regs nonLeaf ra fresh, fresh ≤ p.2 := by
  unfold savedList
  constructor
  · rw [List.zipIdx_map_snd]
    exact List.nodup_range'
  · intro p hp
    exact (List.mem_zipIdx hp).1

theorem saved_regs (regs : List Nat) (nonLeaf : Bool) (ra fresh : Nat) :
    (savedList regs nonLeaf ra fresh).map Prod.fst = regs ++ if nonLeaf then [ra] else [] := by
  unfold savedList
  rw [List.zipIdx_map_fst]

theorem entry_fwd {saved : List (Nat × Nat)} (hnd : (saved.map Prod.snd).Nodup) {F : List (Block σ)} (honce : EntryOnlyOnce F)
    (hfresh : ∀ b ∈ F, ∀ i ∈ b.insts, ∀ k, i.slot? = some k → k ∉ saved.map Prod.snd) {s t : St σ} (h : Run F 0 s t) :
    ∃ t', Run (insertPrologueEpilogue saved F) 0 s t' ∧ Restored saved s.regs t t' := by
  obtain ⟨p1, p2, p3, p4⟩ := stores_spec saved.reverse (by rw [List.map_reverse]; exact List.nodup_reverse.2 hnd) s
  have ha : Agree (fun k => k ∈ saved.map Prod.snd) s (execList (saved.reverse.map fun p => Inst.store p.1 p.2) s) :=
    ⟨p1.symm, p2.symm, fun k hk => (p4 k (by simpa using hk)).symm⟩
  have hv : ∀ p ∈ saved, (execList (saved.reverse.map fun p => Inst.store p.1 p.2) s).slots p.2 = s.regs p.1 :=
    fun p hp => p3 p (List.mem_reverse.2 hp)
  cases h with
  | @ret _ _ blk hF hr =>
    have hmem : blk ∈ F := List.mem_of_getElem? hF
    refine ⟨_, Run.ret (blk := insertBlock saved true blk) (by rw [getElem_insert, hF]; rfl) hr, ?_⟩
    have e : (insertBlock saved true blk).insts = (saved.reverse.map fun p => Inst.store p.1 p.2) ++
        (blk.insts ++ saved.reverse.map fun p => Inst.load p.1 p.2) := by simp [insertBlock, hr]
    rw [e, execList_append]
    exact body_ret (hfresh blk hmem) ha hv
  | @jump _ _ _ blk hF hr hrun =>
    have hmem : blk ∈ F := List.mem_of_getElem? hF
    have e : (insertBlock saved true blk).insts = (saved.reverse.map fun p => Inst.store p.1 p.2) ++ blk.insts := by
      simp [insertBlock, hr]
    obtain ⟨a1, a2⟩ := execList_agree blk.insts (hfresh blk hmem) ha
    obtain ⟨t', h1, h2⟩ := tail_fwd (v := s.regs) honce hfresh hrun (honce blk hmem _ _) _ a1
      (fun p hp => by rw [a2 _ (List.mem_map_of_mem hp)]; exact hv p hp)
    refine ⟨t', Run.jump (blk := insertBlock saved true blk) (by rw [getElem_insert, hF]; rfl) hr ?_, h2⟩
    rw [e, execList_append, ← a1.1, ← a1.2.1]
    exact h1

theorem entry_bwd {saved : List (Nat × Nat)} (hnd : (saved.map Prod.snd).Nodup) {F : List (Block σ)} (honce : EntryOnlyOnce F)
    (hfresh : ∀ b ∈ F, ∀ i ∈ b.insts, ∀ k, i.slot? = some k → k ∉ saved.map Prod.snd) {s t' : St σ}
    (h : Run (insertPrologueEpilogue saved F) 0 s t') : ∃ t, Run F 0 s t := by
  obtain ⟨p1, p2, p3, p4⟩ := stores_spec saved.reverse (by rw [List.map_reverse]; exact List.nodup_reverse.2 hnd) s
  have ha : Agree (fun k => k ∈ saved.map Prod.snd) s (execList (saved.reverse.map fun p => Inst.store p.1 p.2) s) :=
    ⟨p1.symm, p2.symm, fun k hk => (p4 k (by simpa using hk)).symm⟩
  cases h with
  | @ret _ _ blk' hF hr =>
    rw [getElem_insert, Option.map_eq_some_iff] at hF
    obtain ⟨blk, hF, rfl⟩ := hF
    exact ⟨_, Run.ret hF hr⟩
  | @jump _ _ _ blk' hF hr hrun =>
    rw [getElem_insert, Option.map_eq_some_iff] at hF
    obtain ⟨blk, hF, rfl⟩ := hF
    have hr : blk.isRet = false := hr
    have hmem : blk ∈ F := List.mem_of_getElem? hF
    have e : (insertBlock saved (0 == 0) blk).insts = (saved.reverse.map fun p => Inst.store p.1 p.2) ++ blk.insts := by
      simp [insertBlock, hr]
    rw [e, execList_append] at hrun
    obtain ⟨a1, _⟩ := execList_agree blk.insts (hfresh blk hmem) ha
    obtain ⟨t, ht⟩ := tail_bwd honce hfresh hrun (honce blk hmem _ _) (execList blk.insts s) a1
    refine ⟨t, Run.jump hF hr ?_⟩
    rw [a1.1, a1.2.1]
    exact ht

/-- a register no instruction defines keeps its value -/
theorem run_undef {F : List (Block σ)} {r : Nat} (hh : ∀ b ∈ F, ∀ i ∈ b.insts, i.Honest) (hr : ∀ b ∈ F, ∀ i ∈ b.insts, r ∉ i.defs)
    {b : Nat} {s t : St σ} (h : Run F b s t) : t.regs r = s.regs r := by
  have step : ∀ (l : List (Inst σ)), (∀ i ∈ l, i.Honest) → (∀ i ∈ l, r ∉ i.defs) → ∀ s : St σ, (execList l s).regs r = s.regs r := by
    intro l
    induction l with
    | nil => intro _ _ s; rfl
    | cons i l ih =>
      intro h1 h2 s
      rw [show execList (i :: l) s = execList l (i.exec s) from rfl, ih (fun j hj => h1 j (by simp [hj])) (fun j hj => h2 j (by simp [hj]))]
      have hi := h1 i (by simp)
      have hd := h2 i (by simp)
      cases i with
      | store a k => rfl
      | load a k =>
        simp only [Inst.defs, List.mem_singleton] at hd
        simp [Inst.exec, upd, hd]
      | op d f => exact hi s.regs s.rest r hd
  induction h with
  | @ret b s blk hF _ => exact step _ (hh blk (List.mem_of_getElem? hF)) (hr blk (List.mem_of_getElem? hF)) _
  | @jump b s t blk hF _ _ ih =>
    rw [ih]; exact step _ (hh blk (List.mem_of_getElem? hF)) (hr blk (List.mem_of_getElem? hF)) _

/-- C34. `regs` is the set of callee-saved registers defined somewhere in the function, in any order; `fresh` exceeds every slot
number in use. If the entry block is not a jump target, the function with prologue and epilogue returns from exactly the initial
states the original returns from, with the same memory/output, the same other stack slots, the same contents of all registers that
are not callee-saved (except the return-address register), every callee-saved register holding its value at function entry, and, in
a non-leaf function, the return-address register holding its value at entry. -/
theorem C34_callee_saved_preserved (F : List (Block σ)) (calleeSaved : Nat → Prop) (regs : List Nat) (nonLeaf : Bool) (ra fresh : Nat)
    (hregs : ∀ r, r ∈ regs ↔ calleeSaved r ∧ ∃ b ∈ F, ∃ i ∈ b.insts, r ∈ i.defs)
    (hh : ∀ b ∈ F, ∀ i ∈ b.insts, i.Honest)
    (hfresh : ∀ b ∈ F, ∀ i ∈ b.insts, ∀ k, i.slot? = some k → k < fresh)
    (honce : EntryOnlyOnce F) (s : St σ) :
    (∀ t, Run F 0 s t → ∃ t', Run (insertPrologueEpilogue (savedList regs nonLeaf ra fresh) F) 0 s t') ∧
    (∀ t', Run (insertPrologueEpilogue (savedList regs nonLeaf ra fresh) F) 0 s t' → ∃ t, Run F 0 s t ∧
      t'.rest = t.rest ∧ (∀ k, k < fresh → t'.slots k = t.slots k) ∧
      (∀ r, calleeSaved r → t'.regs r = s.regs r) ∧
      (nonLeaf = true → t'.regs ra = s.regs ra) ∧
      (∀ r, ¬ calleeSaved r → (nonLeaf = true → r ≠ ra) → t'.regs r = t.regs r)) := by
  obtain ⟨hnd, hge⟩ := saved_nodup regs nonLeaf ra fresh
  have hf' : ∀ b ∈ F, ∀ i ∈ b.insts, ∀ k, i.slot? = some k → k ∉ (savedList regs nonLeaf ra fresh).map Prod.snd := by
    intro b hb i hi k hk hc
    obtain ⟨p, hp, rfl⟩ := List.mem_map.1 hc
    have := hge p hp
    have := hfresh b hb i hi _ hk
    omega
  refine ⟨fun t ht => ?_, fun t' ht' => ?_⟩
  · obtain ⟨t', h, _⟩ := entry_fwd hnd honce hf' ht
    exact ⟨t', h⟩
  · obtain ⟨t, ht⟩ := entry_bwd hnd honce hf' ht'
    obtain ⟨t'', h'', hR⟩ := entry_fwd hnd honce hf' ht
    have := run_det ht' h''
    subst this
    obtain ⟨r1, r2, r3⟩ := hR
    rw [saved_regs] at r1
    refine ⟨t, ht, r2, ?_, ?_, ?_, ?_⟩
    · intro k hk
      refine r3 k ?_
      intro hc
      obtain ⟨p, hp, rfl⟩ := List.mem_map.1 hc
      have := hge p hp
      omega
    · intro r hr
      rw [r1 r]
      by_cases hn : r ∈ regs ++ if nonLeaf = true then [ra] else []
      · rw [if_pos hn]
      · rw [if_neg hn]
        have : ¬ r ∈ regs := fun h => hn (List.mem_append_left _ h)
        rw [hregs] at this
        refine run_undef hh ?_ ht
        intro b hb i hi hd
        exact this ⟨hr, b, hb, i, hi, hd⟩
    · intro hl
      rw [r1 ra, if_pos (by simp [hl])]
    · intro r hr hra
      rw [r1 r, if_neg]
      intro hm
      rcases List.mem_append.1 hm with hm | hm
      · exact hr ((hregs r).1 hm).1
      · cases hl : nonLeaf with
        | true => rw [hl] at hm; simp only [if_true, List.mem_singleton] at hm; exact hra hl hm
        | false => rw [hl] at hm; simp at hm

/-! ## removing unread spill slots -/

theorem unused_not_loaded {spills : List Nat} {F : List (Block σ)} {k : Nat} (h : k ∈ unusedSpills spills F) :
    ∀ b ∈ F, ∀ i ∈ b.insts, ∀ r, i ≠ Inst.load r k := by
  unfold unusedSpills at h
  simp only [List.mem_filter, Bool.not_eq_true', List.any_eq_false] at h
  intro b hb i hi r e
  subst e
  have := h.2 b hb
  simp only [List.any_eq_true, not_exists, not_and] at this
  exact this _ hi (by simp)

theorem removed_exec {dead : List Nat} : ∀ (l : List (Inst σ)), (∀ i ∈ l, ∀ r k, i = Inst.load r k → k ∉ dead) →
    ∀ {s s' : St σ}, Agree (fun k => k ∈ dead) s s' →
    Agree (fun k => k ∈ dead) (execList l s)
      (execList (l.filter (keepInst dead)) s')
  | [], _, s, s', h => h
  | i :: l, hl, s, s', h => by
    have ih := fun {s s' : St σ} (h : Agree (fun k => k ∈ dead) s s') => removed_exec l (fun j hj => hl j (by simp [hj])) h
    cases i with
    | store r k =>
      by_cases hk : k ∈ dead
      · rw [List.filter_cons_of_neg (by simp [hk, keepInst])]
        refine ih ⟨h.1, h.2.1, ?_⟩
        intro j hj
        simp only [Inst.exec, upd]
        rw [if_neg (by rintro rfl; exact hj hk)]
        exact h.2.2 j hj
      · rw [List.filter_cons_of_pos (by simp [hk, keepInst])]
        exact ih (exec_agree (.store r k) (by rintro _ ⟨⟩; exact hk) h).1
    | load r k =>
      rw [List.filter_cons_of_pos rfl]
      exact ih (exec_agree (.load r k) (by rintro _ ⟨⟩; exact hl _ (by simp) r k rfl) h).1
    | op d f =>
      rw [List.filter_cons_of_pos rfl]
      exact ih (exec_agree (.op d f) (by intro _ h; cases h) h).1

theorem removed_run {dead : List Nat} {F : List (Block σ)} (hd : ∀ b ∈ F, ∀ i ∈ b.insts, ∀ r k, i = Inst.load r k → k ∉ dead)
    {b : Nat} {s t : St σ} (h : Run F b s t) : ∀ s', Agree (fun k => k ∈ dead) s s' →
    ∃ t', Run (F.map (dropBlock dead)) b s' t' ∧
      Agree (fun k => k ∈ dead) t t' := by
  induction h with
  | @ret b s blk hF hr =>
    intro s' ha
    exact ⟨_, Run.ret (blk := dropBlock dead blk) (by rw [List.getElem?_map, hF]; rfl) hr, removed_exec _ (hd blk (List.mem_of_getElem? hF)) ha⟩
  | @jump b s t blk hF hr _ ih =>
    intro s' ha
    have a1 := removed_exec _ (hd blk (List.mem_of_getElem? hF)) ha
    obtain ⟨t', h1, h2⟩ := ih _ a1
    rw [a1.1, a1.2.1] at h1
    exact ⟨t', Run.jump (blk := dropBlock dead blk) (by rw [List.getElem?_map, hF]; rfl) hr h1, h2⟩

theorem removed_run_back {dead : List Nat} {F : List (Block σ)} (hd : ∀ b ∈ F, ∀ i ∈ b.insts, ∀ r k, i = Inst.load r k → k ∉ dead)
    {b : Nat} {s' t' : St σ}
    (h : Run (F.map (dropBlock dead)) b s' t') :
    ∀ s, Agree (fun k => k ∈ dead) s s' → ∃ t, Run F b s t := by
  induction h with
  | @ret b s' blk' hF hr =>
    intro s ha
    rw [List.getElem?_map, Option.map_eq_some_iff] at hF
    obtain ⟨blk, hF, rfl⟩ := hF
    exact ⟨_, Run.ret hF hr⟩
  | @jump b s' t' blk' hF hr _ ih =>
    intro s ha
    rw [List.getElem?_map, Option.map_eq_some_iff] at hF
    obtain ⟨blk, hF, rfl⟩ := hF
    have a1 := removed_exec _ (hd blk (List.mem_of_getElem? hF)) ha
    obtain ⟨t, ht⟩ := ih _ a1
    have e : (dropBlock dead blk).insts = blk.insts.filter (keepInst dead) := rfl
    rw [e, ← a1.1, ← a1.2.1] at ht
    exact ⟨t, Run.jump hF hr ht⟩

/-- C35. Removing the stores to spill slots that are never loaded does not change which states a function returns from, nor the final
registers, memory/output and remaining slots. -/
theorem C35_unused_spills_removable (F : List (Block σ)) (spills : List Nat) (s : St σ) :
    (∀ t, Run F 0 s t → ∃ t', Run (removeUnusedSpills spills F) 0 s t' ∧ t'.regs = t.regs ∧ t'.rest = t.rest ∧
      ∀ k, k ∉ unusedSpills spills F → t'.slots k = t.slots k) ∧
    (∀ t', Run (removeUnusedSpills spills F) 0 s t' → ∃ t, Run F 0 s t) ∧
    (∀ b ∈ removeUnusedSpills spills F, ∀ i ∈ b.insts, ∀ k ∈ unusedSpills spills F, i.slot? ≠ some k) := by
  have hd : ∀ b ∈ F, ∀ i ∈ b.insts, ∀ r k, i = Inst.load r k → k ∉ unusedSpills spills F :=
    fun b hb i hi r k e hk => unused_not_loaded hk b hb i hi r e
  refine ⟨fun t ht => ?_, fun t' ht' => removed_run_back hd ht' s ⟨rfl, rfl, fun _ _ => rfl⟩, ?_⟩
  · obtain ⟨t', h1, h2, h3, h4⟩ := removed_run hd ht s ⟨rfl, rfl, fun _ _ => rfl⟩
    exact ⟨t', h1, h2.symm, h3.symm, fun k hk => (h4 k hk).symm⟩
  · intro b hb i hi k hk e
    unfold removeUnusedSpills at hb
    obtain ⟨blk, hblk, rfl⟩ := List.mem_map.1 hb
    simp only [dropBlock, List.mem_filter] at hi
    cases i with
    | store r k' =>
      simp only [Inst.slot?, Option.some.injEq] at e
      subst e
      have := hi.2
      simp [hk, keepInst] at this
    | load r k' =>
      simp only [Inst.slot?, Option.some.injEq] at e
      subst e
      exact hd blk hblk _ hi.1 r _ rfl hk
    | op d f => simp [Inst.slot?] at e

/-- An example meeting the hypotheses of C34: the body overwrites callee-saved register 8 and returns its double in register 10. -/
def exF : List (Block Unit) :=
  [⟨[.op [8] fun r u => (upd r 8 (r 10 + 1), u), .store 8 0, .store 8 1], false, fun _ _ => 1⟩,
   ⟨[.load 9 0, .op [10] fun r u => (upd r 10 (r 8 + r 9), u)], true, fun _ _ => 1⟩]

example : (∀ r, r ∈ [8] ↔ (r = 8) ∧ ∃ b ∈ exF, ∃ i ∈ b.insts, r ∈ i.defs) ∧ EntryOnlyOnce exF ∧
    (∀ b ∈ exF, ∀ i ∈ b.insts, ∀ k, i.slot? = some k → k < 2) ∧ unusedSpills [0, 1] exF = [1] := by
  refine ⟨?_, ?_, ?_, by rfl⟩
  · intro r
    simp only [exF, List.mem_cons, List.mem_nil_iff, or_false]
    constructor
    · rintro rfl
      exact ⟨rfl, _, Or.inl rfl, _, List.mem_cons_self, List.mem_cons_self⟩
    · exact fun h => h.1
  · intro b hb
    simp only [exF, List.mem_cons, List.mem_nil_iff, or_false] at hb
    rcases hb with rfl | rfl <;> simp
  · intro b hb i hi k hk
    simp only [exF, List.mem_cons, List.mem_nil_iff, or_false] at hb
    rcases hb with rfl | rfl <;> simp at hi <;> rcases hi with rfl | rfl | rfl <;> simp [Inst.slot?] at hk <;> omega

end Cmmc.Prologue
