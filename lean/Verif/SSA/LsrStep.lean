import Verif.SSA.ScevRun
import Verif.SSA.ReorderMain
import Verif.SSA.ReorderSem
import Verif.SSA.Insert
import Verif.SSA.Redirect
import Verif.SSA.M2Proper
import Verif.SSA.M2Main
import Mathlib.Data.Int.ModEq
/-!
# LoopStrengthReduction (cmmc/Transforms/Loop/LoopStrengthReduction.cpp): one new induction variable

`Func.addIV` is one level of `buildAddRec` (l.38-60): a phi in the header and its increment in the block of the expanded instruction.
`addIV_wf`, `addIV_refines`: the result is in SSA form again, and behaves like the function before.
-/
namespace Cmmc.SSA

/-- what the pass needs of the IR in addition to `LoopOps`: the integer constants `ConstantInteger::get(type, value)` (which reduce the
value to the width of the type), and the opcode `Add` it builds. The laws are about the widths `w` of integer types, i.e. those of which
there are constants. -/
structure StrengthOps (L : Lang) extends LoopOps L where
  konst : Nat → Int → L.C
  addOp : L.Op
  addOp_add : isAdd addOp = true
  konst_num : ∀ w, (∃ c z, num c = some (w, z)) → ∀ z, ∃ z', num (konst w z) = some (w, z') ∧ z' ≡ z [ZMOD 2 ^ w]
  int_mod : ∀ w, (∃ c z, num c = some (w, z)) → ∀ a b, a ≡ b [ZMOD 2 ^ w] → int w a = int w b
  mul_add : ∀ op, isMul op = true → isAdd op = false

section
variable {Op C : Type}

/-- `inc->insertBefore(block, iter)` (LoopStrengthReduction.cpp:58): in front of instruction `x` -/
def insertBefore (x : Nat) (j : Inst Op C) : List (Inst Op C) → List (Inst Op C)
  | [] => []
  | i :: is => if i.id = x then j :: i :: is else i :: insertBefore x j is

/-- one level of `buildAddRec` (LoopStrengthReduction.cpp:43-59): phi `n` in front of header `H`, with the predecessors `keys` of the
reference phi; increment `n + 1` in front of `x` in block `b`; `c` is the initial value and `o` what is added in every iteration -/
def Func.addIV (F : Func Op C) (H Lt b x : Nat) (keys : List Nat) (c : C) (op : Op) (o : Opd C) (n : Nat) : Func Op C :=
  F.mapBlocks fun d B => { phis := if d = H then ⟨n, keys.map (fun q => (q, if q = Lt then .inst (n + 1) else .cst c))⟩ :: B.phis else B.phis, body := if d = b then insertBefore x ⟨n + 1, op, [.inst n, o]⟩ B.body else B.body, term := B.term }

theorem insertBefore_split {x : Nat} {j : Inst Op C} : ∀ {is : List (Inst Op C)}, x ∈ is.map Inst.id → ∃ l1 l2, is = l1 ++ l2 ∧ insertBefore x j is = l1 ++ j :: l2 := by
  intro is
  induction is with
  | nil => simp
  | cons i is ih =>
    intro h
    unfold insertBefore
    by_cases hi : i.id = x
    · exact ⟨[], i :: is, rfl, by rw [if_pos hi]; rfl⟩
    · rw [if_neg hi]
      obtain ⟨l1, l2, h1, h2⟩ := ih (by simpa [Ne.symm hi] using h)
      exact ⟨i :: l1, l2, by rw [h1]; rfl, by rw [h2]; rfl⟩

theorem insertBefore_mem {x : Nat} {j i : Inst Op C} : ∀ {is : List (Inst Op C)}, i ∈ insertBefore x j is → i = j ∨ i ∈ is := by
  intro is
  induction is with
  | nil => simp [insertBefore]
  | cons k is ih =>
    unfold insertBefore
    split
    · simp only [List.mem_cons]; tauto
    · simp only [List.mem_cons]; rintro (h | h)
      · tauto
      · rcases ih h with h | h <;> tauto

theorem mem_insertBefore {x : Nat} {j i : Inst Op C} : ∀ {is : List (Inst Op C)}, i ∈ is → i ∈ insertBefore x j is := by
  intro is
  induction is with
  | nil => simp
  | cons k is ih =>
    unfold insertBefore
    split
    · simp only [List.mem_cons]; tauto
    · simp only [List.mem_cons]; rintro (h | h)
      · exact .inl h
      · exact .inr (ih h)

/-- all instructions that are used exist -/
def Func.Refs (F : Func Op C) : Prop := ∀ b B, F.blk b = some B → ∀ x ∈ B.operands, ∃ h, DefIn F x h

/-- where the new induction variable goes: the loop, the block `b` of the instruction `x`, and the predecessors of the header -/
structure Slot (F : Func Op C) (H Lt b x : Nat) (keys : List Nat) (p : Nat) : Prop where
  live : Live F Lt
  edge : Edge F Lt H
  ref : ∃ B φ, F.blk H = some B ∧ φ ∈ B.phis ∧ φ.inc.map Prod.fst = keys
  keys : keys = [p, Lt] ∨ keys = [Lt, p]
  other : p ≠ Lt
  above : Domi F H b
  below : Domi F b Lt
  inst : ∃ B, F.blk b = some B ∧ x ∈ B.body.map Inst.id

variable {F : Func Op C} {H Lt b x p n : Nat} {keys : List Nat} {c : C} {op : Op} {o : Opd C}

theorem addIV_edge {a d : Nat} : Edge (F.addIV H Lt b x keys c op o n) a d ↔ Edge F a d := by
  unfold Func.addIV; refine mapBlocks_edge ?_; intros; rfl

theorem addIV_path {a d : Nat} {l : List Nat} : Dom.Path (Edge (F.addIV H Lt b x keys c op o n)) a d l ↔ Dom.Path (Edge F) a d l := by
  unfold Func.addIV; refine mapBlocks_path ?_; intros; rfl

theorem addIV_live {d : Nat} : Live (F.addIV H Lt b x keys c op o n) d ↔ Live F d := by
  constructor
  · rintro ⟨l, h⟩; exact ⟨l, addIV_path.1 h⟩
  · rintro ⟨l, h⟩; exact ⟨l, addIV_path.2 h⟩

theorem addIV_domi {a d : Nat} : Domi (F.addIV H Lt b x keys c op o n) a d ↔ Domi F a d :=
  ⟨fun h l hl => h l (addIV_path.2 hl), fun h l hl => h l (addIV_path.1 hl)⟩

/-- the blocks of the new function -/
theorem addIV_blk {d : Nat} {B' : Block Op C} : (F.addIV H Lt b x keys c op o n).blk d = some B' ↔ ∃ B, F.blk d = some B ∧ B' = { phis := if d = H then ⟨n, keys.map (fun q => (q, if q = Lt then .inst (n + 1) else .cst c))⟩ :: B.phis else B.phis, body := if d = b then insertBefore x ⟨n + 1, op, [.inst n, o]⟩ B.body else B.body, term := B.term } := by
  unfold Func.addIV Func.mapBlocks
  simp only [Option.map_eq_some_iff]
  constructor
  · rintro ⟨B, h1, h2⟩; exact ⟨B, h1, h2.symm⟩
  · rintro ⟨B, h1, h2⟩; exact ⟨B, h1, h2.symm⟩

/-- everything is still there -/
theorem addIV_grow {d : Nat} {D : Block Op C} (hD : F.blk d = some D) : ∃ D', (F.addIV H Lt b x keys c op o n).blk d = some D' ∧ D.phis ⊆ D'.phis ∧ D.body ⊆ D'.body ∧ D'.term = D.term := by
  refine ⟨_, addIV_blk.2 ⟨D, hD, rfl⟩, ?_, ?_, rfl⟩
  · dsimp only; split
    · exact List.subset_cons_self _ _
    · exact fun _ h => h
  · dsimp only; split
    · exact fun _ h => mem_insertBefore h
    · exact fun _ h => h

theorem addIV_defIn (S : Slot F H Lt b x keys p) {y d : Nat} : DefIn (F.addIV H Lt b x keys c op o n) y d ↔ DefIn F y d ∨ (y = n ∧ d = H) ∨ (y = n + 1 ∧ d = b) := by
  constructor
  · rintro ⟨B', hB', hy⟩
    obtain ⟨B, hB, rfl⟩ := addIV_blk.1 hB'
    simp only [Block.ids, List.mem_append] at hy
    rcases hy with hy | hy
    · split at hy
      · simp only [List.map_cons, List.mem_cons] at hy
        rcases hy with hy | hy
        · exact .inr (.inl ⟨hy, by assumption⟩)
        · exact .inl ⟨B, hB, List.mem_append_left _ hy⟩
      · exact .inl ⟨B, hB, List.mem_append_left _ hy⟩
    · split at hy
      · obtain ⟨i, hi, rfl⟩ := List.mem_map.1 hy
        rcases insertBefore_mem hi with rfl | hi
        · exact .inr (.inr ⟨rfl, by assumption⟩)
        · exact .inl ⟨B, hB, List.mem_append_right _ (List.mem_map_of_mem hi)⟩
      · exact .inl ⟨B, hB, List.mem_append_right _ hy⟩
  · rintro (⟨B, hB, hy⟩ | ⟨rfl, rfl⟩ | ⟨rfl, rfl⟩)
    · obtain ⟨D', h1, h2, h3, _⟩ := addIV_grow (H := H) (Lt := Lt) (b := b) (x := x) (keys := keys) (c := c) (op := op) (o := o) (n := n) hB
      refine ⟨D', h1, ?_⟩
      rcases List.mem_append.1 hy with hy | hy
      · exact List.mem_append_left _ (List.map_subset _ h2 hy)
      · exact List.mem_append_right _ (List.map_subset _ h3 hy)
    · obtain ⟨B, φ, hB, _⟩ := S.ref
      exact ⟨_, addIV_blk.2 ⟨B, hB, rfl⟩, by simp [Block.ids]⟩
    · obtain ⟨B, hB, hx⟩ := S.inst
      refine ⟨_, addIV_blk.2 ⟨B, hB, rfl⟩, ?_⟩
      obtain ⟨l1, l2, _, h⟩ := insertBefore_split (j := (⟨n + 1, op, [.inst n, o]⟩ : Inst Op C)) hx
      simp [Block.ids, h]

theorem Slot.addIV (S : Slot F H Lt b x keys p) : Slot (F.addIV H Lt b x keys c op o n) H Lt b x keys p where
  live := addIV_live.2 S.live
  edge := addIV_edge.2 S.edge
  ref := by
    obtain ⟨B, φ, hB, hφ, hk⟩ := S.ref
    obtain ⟨D', h1, h2, _⟩ := addIV_grow (H := H) (Lt := Lt) (b := b) (x := x) (keys := keys) (c := c) (op := op) (o := o) (n := n) hB
    exact ⟨D', φ, h1, h2 hφ, hk⟩
  keys := S.keys
  other := S.other
  above := addIV_domi.2 S.above
  below := addIV_domi.2 S.below
  inst := by
    obtain ⟨B, hB, hx⟩ := S.inst
    obtain ⟨D', h1, _, h2, _⟩ := addIV_grow (H := H) (Lt := Lt) (b := b) (x := x) (keys := keys) (c := c) (op := op) (o := o) (n := n) hB
    exact ⟨D', h1, List.map_subset _ h2 hx⟩

/-- the step operand is a constant or a phi of the header -/
def HeadOpd (F : Func Op C) (H : Nat) (o : Opd C) : Prop := ∀ y, o = .inst y → ∃ B, F.blk H = some B ∧ y ∈ B.phis.map Phi.id

theorem addIV_refs (R : F.Refs) (S : Slot F H Lt b x keys p) (ho : HeadOpd F H o) : (F.addIV H Lt b x keys c op o n).Refs := by
  intro d B' hB' y hy
  obtain ⟨B, hB, rfl⟩ := addIV_blk.1 hB'
  have old : y ∈ B.operands → ∃ h, DefIn (F.addIV H Lt b x keys c op o n) y h := by
    intro h
    obtain ⟨e, he⟩ := R d B hB y h
    exact ⟨e, (addIV_defIn S).2 (.inl he)⟩
  rw [mem_operands] at hy
  rcases hy with ⟨φ, hφ, hy⟩ | ⟨i, hi, hy⟩ | hy
  · dsimp only at hφ
    split at hφ
    · rcases List.mem_cons.1 hφ with rfl | hφ
      · obtain ⟨q, hq⟩ := mem_ops.1 hy
        obtain ⟨q', _, hq'⟩ := List.mem_map.1 hq
        simp only [Prod.mk.injEq] at hq'
        obtain ⟨_, hq'⟩ := hq'
        split at hq'
        · simp only [Opd.inst.injEq] at hq'
          exact ⟨b, (addIV_defIn S).2 (.inr (.inr ⟨hq'.symm, rfl⟩))⟩
        · simp at hq'
      · exact old (mem_operands.2 (.inl ⟨φ, hφ, hy⟩))
    · exact old (mem_operands.2 (.inl ⟨φ, hφ, hy⟩))
  · dsimp only at hi
    split at hi
    · rcases insertBefore_mem hi with rfl | hi
      · simp only [List.mem_cons, Opd.inst.injEq, List.not_mem_nil, or_false] at hy
        rcases hy with hy | hy
        · exact ⟨H, (addIV_defIn S).2 (.inr (.inl ⟨hy, rfl⟩))⟩
        · obtain ⟨B1, h1, h2⟩ := ho y hy.symm
          exact ⟨H, (addIV_defIn S).2 (.inl ⟨B1, h1, List.mem_append_left _ h2⟩)⟩
      · exact old (mem_operands.2 (.inr (.inl ⟨i, hi, hy⟩)))
    · exact old (mem_operands.2 (.inr (.inl ⟨i, hi, hy⟩)))
  · exact old (mem_operands.2 (.inr (.inr hy)))

theorem addIV_wf (W : LiveWf F) (R : F.Refs) (S : Slot F H Lt b x keys p) (ho : HeadOpd F H o) (hn : ∀ d, ¬ DefIn F n d) (hn1 : ∀ d, ¬ DefIn F (n + 1) d) :
    LiveWf (F.addIV H Lt b x keys c op o n) := by
  have hHb := S.above
  have hbl : Live F b := S.below.live S.live
  have hHl : Live F H := S.above.live hbl
  obtain ⟨HB, ref, hHB, href, hkeys⟩ := S.ref
  have hne : H ≠ F.entry := by
    rintro rfl
    rw [W.entryPhis HB hHB] at href
    simp at href
  have hkey : ∀ q, q ∈ keys ↔ ∃ v, (q, v) ∈ ref.inc := by
    intro q
    rw [← hkeys, List.mem_map]
    constructor
    · rintro ⟨⟨q', v⟩, h1, h2⟩; dsimp only at h2; subst h2; exact ⟨v, h1⟩
    · rintro ⟨v, hv⟩; exact ⟨(q, v), hv, rfl⟩
  have hids : ∀ d B, F.blk d = some B → n ∉ B.ids ∧ n + 1 ∉ B.ids := fun d B hB => ⟨fun h => hn d ⟨B, hB, h⟩, fun h => hn1 d ⟨B, hB, h⟩⟩
  refine { nodup := W.nodup, listed := ?_, total := ?_, entryIn := W.entryIn, closed := ?_, unique := ?_, entryPhis := ?_, inOrder := ?_, use := ?_, phiUse := ?_, phiPred := ?_, phiAll := ?_, phiDead := ?_ }
  · intro d B' h
    obtain ⟨B, hB, _⟩ := addIV_blk.1 h
    exact W.listed d B hB
  · intro d hd
    obtain ⟨B, hB⟩ := W.total d hd
    exact ⟨_, addIV_blk.2 ⟨B, hB, rfl⟩⟩
  · intro a d e; exact W.closed a d (addIV_edge.1 e)
  · refine nodup_allIds W.nodup ?_ ?_
    · intro d B' h
      obtain ⟨B, hB, rfl⟩ := addIV_blk.1 h
      obtain ⟨h1, h2⟩ := hids d B hB
      have hnd := W.block_ids hB
      simp only [Block.ids, List.mem_append, not_or] at h1 h2
      unfold Block.ids at hnd ⊢
      dsimp only
      have hbody : ∀ (ps : List Nat), (ps ++ B.body.map Inst.id).Nodup → n + 1 ∉ ps → (ps ++ (if d = b then insertBefore x ⟨n + 1, op, [.inst n, o]⟩ B.body else B.body).map Inst.id).Nodup := by
        intro ps hps hnp
        split
        · rename_i hdb
          obtain ⟨B1, hB1, hx⟩ := S.inst
          rw [← hdb, hB] at hB1
          rw [← Option.some.inj hB1] at hx
          obtain ⟨l1, l2, e1, e2⟩ := insertBefore_split (j := (⟨n + 1, op, [.inst n, o]⟩ : Inst Op C)) hx
          rw [e2]
          rw [e1] at hps h2
          have hperm : (ps ++ (l1 ++ (⟨n + 1, op, [.inst n, o]⟩ : Inst Op C) :: l2).map Inst.id).Perm ((n + 1) :: (ps ++ (l1 ++ l2).map Inst.id)) := by
            simp only [List.map_append, List.map_cons]
            rw [← List.append_assoc, ← List.append_assoc]
            exact List.perm_middle
          rw [hperm.nodup_iff, List.nodup_cons]
          refine ⟨?_, hps⟩
          rw [List.mem_append, not_or]
          exact ⟨hnp, h2.2⟩
        · exact hps
      split
      · rw [List.map_cons]
        refine hbody (n :: B.phis.map Phi.id) ?_ ?_
        · rw [List.cons_append, List.nodup_cons, List.mem_append, not_or]
          exact ⟨h1, hnd⟩
        · rw [List.mem_cons, not_or]; exact ⟨by omega, h2.1⟩
      · exact hbody _ hnd h2.1
    · intro y d e h1 h2
      rcases (addIV_defIn S).1 h1 with h1 | ⟨rfl, rfl⟩ | ⟨rfl, rfl⟩ <;> rcases (addIV_defIn S).1 h2 with h2 | ⟨h2, rfl⟩ | ⟨h2, rfl⟩
      · exact W.home h1 h2
      · rename_i h3; subst h3; exact absurd (by assumption) (hn d)
      · rename_i h3; subst h3; exact absurd (by assumption) (hn1 d)
      · exact absurd h2 (hn _)
      · rfl
      · omega
      · exact absurd h2 (hn1 _)
      · omega
      · rfl
  · intro B' h
    obtain ⟨B, hB, rfl⟩ := addIV_blk.1 h
    dsimp only
    rw [if_neg (fun e => hne e.symm)]
    exact W.entryPhis B hB
  · intro d B' h hl
    obtain ⟨B, hB, rfl⟩ := addIV_blk.1 h
    have hl := addIV_live.1 hl
    have hio := W.inOrder d B hB hl
    obtain ⟨hi1, hi2⟩ := hids d B hB
    -- the phis of the new block
    have hph : ∀ y, y ∈ B.phis.map Phi.id → y ∈ (if d = H then (⟨n, keys.map (fun q => (q, if q = Lt then .inst (n + 1) else .cst c))⟩ : Phi C) :: B.phis else B.phis).map Phi.id := by
      intro y hy; split
      · exact List.mem_cons_of_mem _ hy
      · exact hy
    have hop : ∀ y, y ∈ B.operands → y ≠ n ∧ y ≠ n + 1 := by
      intro y hy
      obtain ⟨e, he⟩ := R d B hB y hy
      exact ⟨fun h => hn e (h ▸ he), fun h => hn1 e (h ▸ he)⟩
    have hidback : ∀ y, y ≠ n → y ≠ n + 1 → y ∈ Block.ids { phis := if d = H then (⟨n, keys.map (fun q => (q, if q = Lt then .inst (n + 1) else .cst c))⟩ : Phi C) :: B.phis else B.phis, body := if d = b then insertBefore x (⟨n + 1, op, [.inst n, o]⟩ : Inst Op C) B.body else B.body, term := B.term } → y ∈ B.ids := by
      intro y h1 h2 hy
      have : DefIn (F.addIV H Lt b x keys c op o n) y d := ⟨_, h, hy⟩
      rcases (addIV_defIn S).1 this with h3 | h3 | h3
      · obtain ⟨B1, hB1, h4⟩ := h3
        rw [hB] at hB1
        rwa [Option.some.inj hB1]
      · exact absurd h3.1 h1
      · exact absurd h3.1 h2
    constructor
    · intro pre i post he y hy hyi
      dsimp only at he ⊢
      by_cases hdb : d = b
      · subst hdb
        rw [if_pos rfl] at he
        obtain ⟨B1, hB1, hx⟩ := S.inst
        rw [hB] at hB1
        rw [← Option.some.inj hB1] at hx
        obtain ⟨l1, l2, e1, e2⟩ := insertBefore_split (j := (⟨n + 1, op, [.inst n, o]⟩ : Inst Op C)) hx
        rw [e2] at he
        -- which of the instructions it is
        have himem : i ∈ insertBefore x (⟨n + 1, op, [.inst n, o]⟩ : Inst Op C) B.body := by rw [e2, he]; simp
        by_cases hij : i = (⟨n + 1, op, [.inst n, o]⟩ : Inst Op C)
        · rw [hij] at hy
          simp only [List.mem_cons, Opd.inst.injEq, List.not_mem_nil, or_false] at hy
          have hyH : DefIn (F.addIV H Lt d x keys c op o n) y H := by
            rcases hy with rfl | hy
            · exact (addIV_defIn S).2 (.inr (.inl ⟨rfl, rfl⟩))
            · obtain ⟨B2, h3, h4⟩ := ho y hy.symm
              exact (addIV_defIn S).2 (.inl ⟨B2, h3, List.mem_append_left _ h4⟩)
          left
          rcases hy with rfl | hy
          · have : d = H := by
              have h9 : DefIn (F.addIV H Lt d x keys c op o y) y d := ⟨_, h, hyi⟩
              rcases (addIV_defIn S).1 h9 with h9 | h9 | h9
              · exact absurd h9 (hn _)
              · exact h9.2
              · omega
            rw [if_pos this]; simp
          · obtain ⟨B2, h3, h4⟩ := ho y hy.symm
            have hyn : y ≠ n := by rintro rfl; exact hn _ ⟨B2, h3, List.mem_append_left _ h4⟩
            have hyn1 : y ≠ n + 1 := by rintro rfl; exact hn1 _ ⟨B2, h3, List.mem_append_left _ h4⟩
            have : d = H := W.home ⟨B, hB, hidback y hyn hyn1 (by simpa using hyi)⟩ ⟨B2, h3, List.mem_append_left _ h4⟩
            subst this
            rw [hB] at h3
            rw [← Option.some.inj h3] at h4
            exact hph y h4
        · have hib : i ∈ B.body := (insertBefore_mem himem).resolve_left hij
          obtain ⟨hy1, hy2⟩ := hop y (mem_operands.2 (.inr (.inl ⟨i, hib, hy⟩)))
          have hyB := hidback y hy1 hy2 (by simpa using hyi)
          -- its place in the old body
          have hex : ∃ pre' post', B.body = pre' ++ i :: post' ∧ ∀ z, z ∈ pre' → z ∈ pre := by
            rcases List.append_eq_append_iff.1 he with ⟨a, h3, h4⟩ | ⟨a, h3, h4⟩
            · -- l1 is a prefix of pre
              cases a with
              | nil =>
                simp only [List.nil_append, List.cons.injEq] at h4
                exact absurd h4.1.symm hij
              | cons z a =>
                simp only [List.cons_append, List.cons.injEq] at h4
                refine ⟨l1 ++ a, post, by rw [e1, h4.2]; simp, ?_⟩
                intro w hw
                rw [h3]
                rcases List.mem_append.1 hw with hw | hw
                · simp [hw]
                · simp [hw]
            · cases a with
              | nil =>
                simp only [List.nil_append, List.cons.injEq] at h4
                exact absurd h4.1 hij
              | cons z a =>
                simp only [List.cons_append, List.cons.injEq] at h4
                refine ⟨pre, a ++ l2, ?_, fun w hw => hw⟩
                rw [e1, h3, h4.1]; simp
          obtain ⟨pre', post', h3, h4⟩ := hex
          rcases hio.1 pre' i post' h3 y hy hyB with h5 | h5
          · exact .inl (hph y h5)
          · obtain ⟨z, hz, rfl⟩ := List.mem_map.1 h5
            exact .inr (List.mem_map_of_mem (h4 z hz))
      · rw [if_neg hdb] at he
        have hib : i ∈ B.body := by rw [he]; simp
        obtain ⟨hy1, hy2⟩ := hop y (mem_operands.2 (.inr (.inl ⟨i, hib, hy⟩)))
        rcases hio.1 pre i post he y hy (hidback y hy1 hy2 hyi) with h5 | h5
        · exact .inl (hph y h5)
        · exact .inr h5
    · intro y hy hyi
      dsimp only at hy ⊢
      obtain ⟨hy1, hy2⟩ := hop y (mem_operands.2 (.inr (.inr hy)))
      rcases hio.2 y hy (hidback y hy1 hy2 hyi) with h5 | h5
      · exact .inl (hph y h5)
      · right
        split
        · obtain ⟨z, hz, rfl⟩ := List.mem_map.1 h5
          exact List.mem_map_of_mem (mem_insertBefore hz)
        · exact h5
  · intro d B' y h hl hy
    obtain ⟨B, hB, rfl⟩ := addIV_blk.1 h
    have hl := addIV_live.1 hl
    have old : ((∃ i ∈ B.body, Opd.inst y ∈ i.args) ∨ Opd.inst y ∈ B.term.args) → ∃ h, DefIn (F.addIV H Lt b x keys c op o n) y h ∧ Domi (F.addIV H Lt b x keys c op o n) h d := by
      intro hu
      obtain ⟨e, h1, h2⟩ := W.use d B y hB hl hu
      exact ⟨e, (addIV_defIn S).2 (.inl h1), addIV_domi.2 h2⟩
    rcases hy with ⟨i, hi, hy⟩ | hy
    · dsimp only at hi
      split at hi
      · rename_i hdb
        rcases insertBefore_mem hi with rfl | hi
        · subst hdb
          simp only [List.mem_cons, Opd.inst.injEq, List.not_mem_nil, or_false] at hy
          refine ⟨H, ?_, addIV_domi.2 S.above⟩
          rcases hy with rfl | hy
          · exact (addIV_defIn S).2 (.inr (.inl ⟨rfl, rfl⟩))
          · obtain ⟨B2, h3, h4⟩ := ho y hy.symm
            exact (addIV_defIn S).2 (.inl ⟨B2, h3, List.mem_append_left _ h4⟩)
        · exact old (.inl ⟨i, hi, hy⟩)
      · exact old (.inl ⟨i, hi, hy⟩)
    · exact old (.inr hy)
  · intro d B' φ q y h hl hφ hy hlq
    obtain ⟨B, hB, rfl⟩ := addIV_blk.1 h
    have hl := addIV_live.1 hl
    have hlq := addIV_live.1 hlq
    have old : φ ∈ B.phis → ∃ h, DefIn (F.addIV H Lt b x keys c op o n) y h ∧ Domi (F.addIV H Lt b x keys c op o n) h q := by
      intro hu
      obtain ⟨e, h1, h2⟩ := W.phiUse d B φ q y hB hl hu hy hlq
      exact ⟨e, (addIV_defIn S).2 (.inl h1), addIV_domi.2 h2⟩
    dsimp only at hφ
    split at hφ
    · rcases List.mem_cons.1 hφ with rfl | hφ
      · obtain ⟨q', _, hq'⟩ := List.mem_map.1 hy
        simp only [Prod.mk.injEq] at hq'
        obtain ⟨hqq, hq'⟩ := hq'
        split at hq'
        · simp only [Opd.inst.injEq] at hq'
          refine ⟨b, (addIV_defIn S).2 (.inr (.inr ⟨hq'.symm, rfl⟩)), addIV_domi.2 ?_⟩
          have : q = Lt := by rw [← hqq]; assumption
          rw [this]; exact S.below
        · simp at hq'
      · exact old hφ
    · exact old hφ
  · intro d B' φ h hl hφ q v hv
    obtain ⟨B, hB, rfl⟩ := addIV_blk.1 h
    have hl := addIV_live.1 hl
    refine addIV_edge.2 ?_
    dsimp only at hφ
    split at hφ
    · rename_i hdH
      rcases List.mem_cons.1 hφ with rfl | hφ
      · obtain ⟨q', hk, hq'⟩ := List.mem_map.1 hv
        simp only [Prod.mk.injEq] at hq'
        obtain ⟨v', hv'⟩ := (hkey q').1 hk
        rw [← hq'.1, hdH]
        exact W.phiPred H HB ref hHB hHl href q' v' hv'
      · exact W.phiPred d B φ hB hl hφ q v hv
    · exact W.phiPred d B φ hB hl hφ q v hv
  · intro d B' φ q h hl hφ he hlq
    obtain ⟨B, hB, rfl⟩ := addIV_blk.1 h
    have hl := addIV_live.1 hl
    have hlq := addIV_live.1 hlq
    have he := addIV_edge.1 he
    dsimp only at hφ
    split at hφ
    · rename_i hdH
      rcases List.mem_cons.1 hφ with rfl | hφ
      · rw [hdH] at he
        have := (hkey q).2 (W.phiAll H HB ref q hHB hHl href he hlq)
        exact ⟨_, List.mem_map.2 ⟨q, this, rfl⟩⟩
      · exact W.phiAll d B φ q hB hl hφ he hlq
    · exact W.phiAll d B φ q hB hl hφ he hlq
  · intro d B' φ φ' q v h hl hφ hφ' hv
    obtain ⟨B, hB, rfl⟩ := addIV_blk.1 h
    have hl := addIV_live.1 hl
    have hl' := hl
    dsimp only at hφ hφ'
    split at hφ
    · rename_i hdH
      rw [if_pos hdH] at hφ'
      subst hdH
      rw [hHB] at hB
      have hB := Option.some.inj hB
      subst hB
      have h1 : ∃ v, (q, v) ∈ ref.inc := by
        rcases List.mem_cons.1 hφ with rfl | hφ
        · obtain ⟨q', hk, hq'⟩ := List.mem_map.1 hv
          simp only [Prod.mk.injEq] at hq'
          rw [← hq'.1]
          exact (hkey q').1 hk
        · exact W.phiDead d HB φ ref q v hHB hHl hφ href hv
      rcases List.mem_cons.1 hφ' with rfl | hφ'
      · exact ⟨_, List.mem_map.2 ⟨q, (hkey q).2 h1, rfl⟩⟩
      · obtain ⟨v1, hv1⟩ := h1
        exact W.phiDead d HB ref φ' q v1 hHB hHl href hφ' hv1
    · rename_i hdH
      rw [if_neg hdH] at hφ'
      exact W.phiDead d B φ φ' q v hB hl hφ hφ' hv

end
end Cmmc.SSA
