import Verif.Fe.SlotUse
import Verif.Fe.Opt
import Verif.SSA.M2Main
/-!
# ScalarMem2Reg on the code that the front end emits (C68)
-/
namespace Cmmc.Fe
open Cmmc

/-- what ScalarMem2Reg sees of the instructions. A slot with one element is a scalar, or an array of one element: that one is not promoted by the
real pass, because of its type; here because it is only used by `getelementptr`, which is put together with the pointer casts. -/
def kindOp : Op → SSA.Kind
  | .alloca _ z => .alloca (decide (z = 1))
  | .load _ => .load
  | .store _ => .store
  | .gep .. => .cast
  | .call .. => .call
  | _ => .other

section
variable {X : Ext}

theorem ok_inj {V M E H : Type} {v v' : V} {m m' : M} {es es' : List E} (h : (SSA.Res.ok v m es : SSA.Res V M E H) = .ok v' m' es') : v' = v ∧ m' = m := by
  injection h with h1 h2 h3; exact ⟨h1.symm, h2.symm⟩

/-- the address of slot `k` or of a part of it -/
def touches (k : Nat) (v : V) : Prop := ∃ off, v = V.ptr (.loc k) off

/-- the content of slot `k` -/
def slotVal (m : Mem X) (k : Nat) : Option V := (m.mem k 0).map V.int

/-- the slot of an allocation -/
def slotOp : Op → Option Nat
  | .alloca k _ => some k
  | _ => none

theorem not_touch_int (k n : Nat) : ¬ touches k (.int n) := fun ⟨_, h⟩ => by cases h
theorem not_touch_undef (k : Nat) : ¬ touches k .undef := fun ⟨_, h⟩ => by cases h

theorem sem_alloca {tc : Calls X} {k : Nat} {z : Int} {vs : List V} {m m' : Mem X} {v : V} {es : List X.E} (h : irSem tc (.alloca k z) vs m = .ok v m' es) :
    v = .ptr (.loc k) 0 ∧ slotVal m' k = none := by
  unfold irSem at h
  split at h <;> rename_i e <;> try cases e
  · obtain ⟨rfl, rfl⟩ := ok_inj h
    exact ⟨rfl, by simp [slotVal]⟩
  · cases h

theorem sem_load {tc : Calls X} {k w : Nat} {vs : List V} {m m' : Mem X} {v : V} {es : List X.E} (h0 : vs[0]? = some (.ptr (.loc k) 0))
    (h : irSem tc (.load w) vs m = .ok v m' es) : slotVal m k = some v ∧ m' = m ∧ ¬ touches k v := by
  unfold irSem at h
  split at h <;> rename_i e <;> try cases e
  · simp only [List.getElem?_cons_zero, Option.some.injEq, V.ptr.injEq, Obj.loc.injEq] at h0
    obtain ⟨rfl, rfl⟩ := h0
    split at h
    · rename_i n hn
      split at h
      · obtain ⟨rfl, rfl⟩ := ok_inj h
        exact ⟨by simp [slotVal, hn], rfl, not_touch_int _ _⟩
      · cases h
    · cases h
  · simp at h0
  · cases h

theorem sem_store {tc : Calls X} {k w : Nat} {vs : List V} {m m' : Mem X} {x v : V} {es : List X.E} (h0 : vs[0]? = some (.ptr (.loc k) 0)) (h1 : vs[1]? = some x)
    (h : irSem tc (.store w) vs m = .ok v m' es) : slotVal m' k = some x ∧ ¬ touches k v := by
  unfold irSem at h
  split at h <;> rename_i e <;> try cases e
  · simp only [List.getElem?_cons_zero, List.getElem?_cons_succ, Option.some.injEq, V.ptr.injEq, Obj.loc.injEq] at h0 h1
    obtain ⟨rfl, rfl⟩ := h0
    subst h1
    split at h
    · obtain ⟨rfl, rfl⟩ := ok_inj h
      exact ⟨by simp [slotVal], not_touch_undef _⟩
    · cases h
  · simp at h0
  · cases h

theorem sem_other {tc : Calls X} {op : Op} {k : Nat} {vs : List V} {m m' : Mem X} {v : V} {es : List X.E} (hs : slotOp op ≠ some k) (hv : ∀ x ∈ vs, ¬ touches k x)
    (h : irSem tc op vs m = .ok v m' es) : slotVal m' k = slotVal m k ∧ ¬ touches k v := by
  unfold irSem at h
  split at h
  · split at h
    · obtain ⟨rfl, rfl⟩ := ok_inj h
      exact ⟨rfl, not_touch_int _ _⟩
    · cases h
  · obtain ⟨rfl, rfl⟩ := ok_inj h
    exact ⟨rfl, not_touch_int _ _⟩
  · obtain ⟨rfl, rfl⟩ := ok_inj h
    exact ⟨rfl, not_touch_int _ _⟩
  · obtain ⟨rfl, rfl⟩ := ok_inj h
    exact ⟨rfl, not_touch_int _ _⟩
  · split at h
    · split at h
      · obtain ⟨rfl, rfl⟩ := ok_inj h
        exact ⟨rfl, not_touch_int _ _⟩
      · cases h
    · cases h
  · split at h
    · obtain ⟨rfl, rfl⟩ := ok_inj h
      exact ⟨rfl, not_touch_int _ _⟩
    · cases h
  · rename_i _ k' off n
    have hk : k' ≠ k := fun e => hv _ (List.mem_cons_self ..) ⟨off, by rw [e]⟩
    split at h
    · obtain ⟨rfl, rfl⟩ := ok_inj h
      exact ⟨by simp [slotVal, Ne.symm hk], not_touch_undef _⟩
    · cases h
  · split at h
    · obtain ⟨rfl, rfl⟩ := ok_inj h
      exact ⟨rfl, not_touch_undef _⟩
    · cases h
  · rename_i o off i
    obtain ⟨rfl, rfl⟩ := ok_inj h
    refine ⟨rfl, fun ⟨off', h⟩ => ?_⟩
    injection h with h1 h2
    exact hv _ (List.mem_cons_self ..) ⟨off, by rw [h1]⟩
  · rename_i f r
    split at h
    · cases h
    · split at h
      · cases h
      · cases h
      · obtain ⟨rfl, rfl⟩ := ok_inj h
        refine ⟨rfl, ?_⟩
        cases r
        · exact not_touch_undef _
        · exact not_touch_int _ _
  · rename_i k' z
    have hk : k' ≠ k := fun e => hs (by rw [e]; rfl)
    obtain ⟨rfl, rfl⟩ := ok_inj h
    refine ⟨by simp [slotVal, Ne.symm hk], fun ⟨_, h⟩ => ?_⟩
    injection h with h1 h2
    injection h1 with h1
    exact hk h1
  · cases h

/-- stack slots in the language of the front end -/
def slotsL (tc : Calls X) (as : List Nat) : SSA.Slots (irL tc as) kindOp where
  K := Nat
  slot := slotOp
  get := slotVal
  addr := fun k => V.ptr (.loc k) 0
  touch := touches
  clean := fun _ _ => True
  scalar := fun _ => True
  scalarOf := fun _ _ _ _ => trivial
  slotOf := by
    intro op s h
    cases op <;> simp only [kindOp, reduceCtorEq] at h
    exact ⟨_, rfl⟩
  cst := by
    rintro k c ⟨off, h⟩
    cases c with
    | int w n => cases h
    | glob g => cases h
    | undef => cases h
    | arg i =>
      replace h : (match as[i]? with | some n => V.int n | none => V.undef) = V.ptr (.loc k) off := h
      split at h <;> cases h
  addrOther := by
    rintro k k' hk ⟨off, h⟩
    injection h with h1 h2
    injection h1 with h1
    exact hk h1.symm
  alloca := by
    intro op s vs m v m' es hk h
    cases op with
    | alloca k z =>
      obtain ⟨h1, h2⟩ := sem_alloca (show irSem tc (.alloca k z) vs m = .ok v m' es from h)
      exact ⟨k, rfl, h1, h2, trivial⟩
    | _ => cases hk
  load := by
    intro op k vs m v m' es _ hk h0 hj _ h
    cases op with
    | load w =>
      obtain ⟨h1, h2, h3⟩ := sem_load h0 (show irSem tc (.load w) vs m = .ok v m' es from h)
      exact ⟨h1, by rw [h2], trivial, h3⟩
    | _ => cases hk
  store := by
    intro op k w vs m v m' es _ hk h0 h1 hj _ h
    cases op with
    | store b =>
      obtain ⟨h1, h2⟩ := sem_store h0 h1 (show irSem tc (.store b) vs m = .ok v m' es from h)
      exact ⟨h1, trivial, h2⟩
    | _ => cases hk
  other := by
    intro op k vs m v m' es hs hv _ h
    obtain ⟨h1, h2⟩ := sem_other hs hv (show irSem tc op vs m = .ok v m' es from h)
    exact ⟨h1, trivial, h2⟩

/-! ## emitted instructions -/

/-- an allocation, or an instruction that uses slots as addresses -/
def Emitted (i : SSA.Inst Op Cst) : Prop := (∃ k z, i = ⟨2 * k, .alloca k z, []⟩) ∨ opOk i.op i.args

theorem split_mem (fb : SSA.Term Cst) : ∀ (rs : List Raw) (i : SSA.Inst Op Cst), i ∈ (splitTerm fb rs).1 → Raw.inst i ∈ rs
  | [], i, h => by cases h
  | .inst j :: rs, i, h => by
    rcases List.mem_cons.1 h with rfl | h
    · exact List.mem_cons_self ..
    · exact List.mem_cons_of_mem _ (split_mem fb rs i h)
  | .term t :: rs, i, h => by cases h
  | .phi p :: rs, i, h => List.mem_cons_of_mem _ (split_mem fb rs i h)

theorem emitted_finish {sigs : Sigs} {P : Wd} {gs : List Glob} {fn : Fn} {c : Ctx} (h : emitFn sigs P gs fn = some c) {b : Nat} {B : SSA.Block Op Cst}
    (hB : (finish fn c).blk b = some B) {i : SSA.Inst Op Cst} (hi : i ∈ B.body) : Emitted i := by
  have g := good_emitFn h
  simp only [finish, Option.map_eq_some_iff] at hB
  obtain ⟨rs, h1, rfl⟩ := hB
  have hm := split_mem _ _ _ hi
  unfold Ctx.full at h1
  split at h1
  · simp only [Option.some.injEq] at h1
    subst h1
    split at hm
    · rcases List.mem_append.1 hm with hm | hm
      · left
        unfold allocas at hm
        rw [List.mem_reverse] at hm
        obtain ⟨⟨z, k⟩, _, e⟩ := List.mem_map.1 hm
        injection e with e
        exact ⟨k, z, e.symm⟩
      · exact .inr (g.code _ _ hm)
    · exact .inr (g.code _ _ hm)
  · cases h1

theorem val_sub {σ : Nat → Opd} (hσ : ∀ x, σ x = .inst x ∨ ∃ d, σ x = .cst d) {o : Opd} (h : valO o) : valO (o.sub σ) := by
  cases o with
  | cst d => exact h
  | inst x =>
    rcases hσ x with e | ⟨d, e⟩
    · rw [show (SSA.Opd.inst x : Opd).sub σ = σ x from rfl, e]; exact h
    · rw [show (SSA.Opd.inst x : Opd).sub σ = σ x from rfl, e]; exact val_cst _

theorem emitted_sub {σ : Nat → Opd} (hσ : ∀ x, σ x = .inst x ∨ ∃ d, σ x = .cst d) {i : SSA.Inst Op Cst} (h : Emitted i) : Emitted (i.sub σ) := by
  rcases h with ⟨k, z, rfl⟩ | h
  · exact .inl ⟨k, z, rfl⟩
  · right
    have all : (∀ o ∈ i.args, valO o) → ∀ o ∈ (i.sub σ).args, valO o := by
      intro h o ho
      obtain ⟨o', ho', rfl⟩ := List.mem_map.1 (show o ∈ i.args.map (fun o => o.sub σ) from ho)
      exact val_sub hσ (h o' ho')
    have two : (∃ a v, i.args = [a, v] ∧ valO v) → ∃ a v, (i.sub σ).args = [a, v] ∧ valO v := by
      rintro ⟨a, v, e, hv⟩
      exact ⟨a.sub σ, v.sub σ, by simp [SSA.Inst.sub, e], val_sub hσ hv⟩
    obtain ⟨id, op, args⟩ := i
    cases op with
    | load w => exact (List.length_map _).trans h
    | store w => exact two h
    | gep a b => exact two h
    | alloca k z => exact h.elim
    | bin a b => exact all h
    | neg a => exact all h
    | icmp a b => exact all h
    | cast a b c => exact all h
    | call a b => exact all h

theorem emitted_slotUses {G : SSA.Func Op Cst} (h : ∀ b (B : SSA.Block Op Cst), G.blk b = some B → ∀ i ∈ B.body, Emitted i) : SSA.SlotUses kindOp G := by
  intro a ha b B hB i hi hm
  obtain ⟨B0, j, i0, hB0, hi0, rfl, hs, _⟩ := SSA.leading_spec ha
  obtain ⟨k, hk⟩ : ∃ k, i0.id = 2 * k := by
    rcases h _ _ hB0 i0 (List.mem_of_getElem? hi0) with ⟨k, z, rfl⟩ | h0
    · exact ⟨k, rfl⟩
    · obtain ⟨id, op, args⟩ := i0
      cases op <;> simp only [kindOp, reduceCtorEq] at hs
      exact h0.elim
  rw [hk] at hm ⊢
  rcases h _ _ hB i hi with ⟨k, z, rfl⟩ | h1
  · cases hm
  · obtain ⟨id, op, args⟩ := i
    have two : (∃ a v, args = [a, v] ∧ valO v) → args.length = 2 ∧ args[0]? = some (.inst (2 * k)) := by
      rintro ⟨a, v, rfl, hv⟩
      rcases List.mem_cons.1 hm with rfl | hm
      · exact ⟨rfl, rfl⟩
      · exact absurd (List.mem_singleton.1 hm).symm (hv k)
    have none_ : (∀ o ∈ args, valO o) → False := fun h => h _ hm k rfl
    cases op with
    | load w =>
      obtain ⟨x, rfl⟩ : ∃ x, args = [x] := List.length_eq_one_iff.1 h1
      rw [← List.mem_singleton.1 hm]; rfl
    | store w => exact (two h1).1
    | gep a b => exact (two h1).2
    | alloca k z => exact h1.elim
    | bin a b => exact (none_ h1).elim
    | neg a => exact (none_ h1).elim
    | icmp a b => exact (none_ h1).elim
    | cast a b c => exact (none_ h1).elim
    | call a b => exact trivial

theorem emitted_differ {G : SSA.Func Op Cst} (h : ∀ b (B : SSA.Block Op Cst), G.blk b = some B → ∀ i ∈ B.body, Emitted i) (tc : Calls X) (as : List Nat) :
    SSA.SlotsDiffer (slotsL tc as).slot G := by
  have key : ∀ (i : SSA.Inst Op Cst) (k : Nat), Emitted i → (slotsL tc as).slot i.op = some k → i.id = 2 * k := by
    rintro i k (⟨k', z, rfl⟩ | h) e
    · cases e; rfl
    · obtain ⟨id, op, args⟩ := i
      cases op with
      | alloca k z => exact h.elim
      | _ => cases e
  intro b B hB i hi b' B' hB' i' hi' k h1 h2
  rw [key i k (h b B hB i hi) h1, key i' k (h b' B' hB' i' hi') h2]

/-- what BlockEliminate leaves of emitted code -/
theorem emitted_elim {sigs : Sigs} {P : Wd} {gs : List Glob} {fn : Fn} {c : Ctx} (h : emitFn sigs P gs fn = some c) {u : Nat → Cst} {G : SSA.Func Op Cst} {r dead : List Nat}
    (E : SSA.Elim u (finish fn c) G r dead) {b : Nat} {B : SSA.Block Op Cst} (hB : G.blk b = some B) {i : SSA.Inst Op Cst} (hi : i ∈ B.body) : Emitted i := by
  have hl : SSA.Live (finish fn c) b := by
    by_contra hn
    rw [E.gone b hn] at hB; cases hB
  cases hF : (finish fn c).blk b with
  | none => rw [E.noBlk b hF] at hB; cases hB
  | some B0 =>
    obtain ⟨B1, h1, h2⟩ := E.kept b B0 hl hF
    rw [hB] at h1; cases h1
    rw [h2.body] at hi
    obtain ⟨i0, hi0, rfl⟩ := List.mem_map.1 hi
    refine emitted_sub (fun x => ?_) (emitted_finish h hF hi0)
    unfold SSA.undefOf
    split
    · exact .inr ⟨_, rfl⟩
    · exact .inl rfl

/-- BlockEliminate, ScalarMem2Reg (which visits the blocks in the order `vis`), then the passes of `optimise` -/
def promoteAndOptimise (ord : List Nat → List Nat) (cord : Nat → List Nat → List Nat) (vis : SSA.Func Op Cst → List Nat) (ty : Nat → Nat → Bool) (u : Nat → Cst)
    (F : SSA.Func Op Cst) : Option (SSA.Func Op Cst) :=
  (SSA.blockEliminate u F).bind fun F =>
  (SSA.scalarMem2Reg kindOp ord cord u (vis F) F).bind (optimise ord ty u)

/-- **C68.** From source to optimised code with the variables in registers: the passes terminate on what the front end emits, and the result
does what the source says. -/
theorem C68_promoted {sigs : Sigs} {P : Wd} (hP : 32 ≤ P.bits) {gs : List Glob} {fn : Fn} {c : Ctx} (h : emitFn sigs P gs fn = some c)
    (hwf : fn.body.wf = true) {call tc : Calls X} (hX : Separate X)
    (href : ∀ f ns w, ConstOk gs w → call f ns w ≠ .ub → tc f ns w = call f ns w)
    (hic : ∀ f ns w n w' es, ConstOk gs w → call f ns w = .ok n w' es → ConstOk gs w')
    {ord : List Nat → List Nat} (hord : ∀ l, (ord l).Perm l) {cord : Nat → List Nat → List Nat} (hcord : ∀ b l, (cord b l).Perm l)
    {vis : SSA.Func Op Cst → List Nat} (hvis : ∀ F, (vis F).Perm F.order) (ty : Nat → Nat → Bool) (u : Nat → Cst) :
    ∃ G, promoteAndOptimise ord cord vis ty u (finish fn c) = some G ∧ Implements sigs call tc gs fn G := by
  have h0 : Implements sigs call tc gs fn (finish fn c) := fun as ha m hm => C61_function hP h hwf hX href hic ha m hm
  obtain ⟨A, hA⟩ := inv_emitFn h
  obtain ⟨G1, r, dead, e1, E, P1⟩ := SSA.liveWf_proper (u := u) hA.liveWf
  have L1 : SSA.AllLive G1 := E.allLive
  have r1 : ∀ as, SSA.Refines (irL tc as) (finish fn c) G1 := by
    intro as
    obtain ⟨G', h1, _, _, _, h5, _⟩ := SSA.C63_blockEliminate (L := irL tc as) ⟨fun _ l => l, fun _ l => l, fun _ l => l, fun _ _ => .refl _, fun _ _ => .refl _, fun _ _ => .refl _⟩ u
      (F := finish fn c) hA.liveWf
    have : G' = G1 := Option.some.inj (h1.symm.trans e1)
    rw [← this]; exact h5
  have em : ∀ b (B : SSA.Block Op Cst), G1.blk b = some B → ∀ i ∈ B.body, Emitted i := fun b B hB i hi => emitted_elim h E hB hi
  have m2 := fun as => SSA.C67_scalarMem2Reg (slotsL tc as) P1 L1 (emitted_slotUses em) (emitted_differ em tc as) ord hord cord hcord u (vis G1) (hvis G1)
  obtain ⟨G2, e2, _, P2, L2⟩ := m2 []
  have r2 : ∀ as, SSA.Refines (irL tc as) G1 G2 := by
    intro as
    obtain ⟨G', e', r', _⟩ := m2 as
    have : G' = G2 := Option.some.inj (e'.symm.trans e2)
    rw [← this]; exact r'
  have h2 : Implements sigs call tc gs fn G2 := (h0.refines r1).refines r2
  obtain ⟨G3, e3, r3⟩ := optimise_ok (tc := tc) P2 L2 hord ty u
  refine ⟨G3, ?_, h2.refines r3⟩
  unfold promoteAndOptimise
  rw [e1, Option.bind_some]
  exact Option.bind_eq_some_iff.2 ⟨G2, e2, e3⟩

end
end Cmmc.Fe
