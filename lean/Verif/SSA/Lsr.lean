import Verif.SSA.LsrSub
/-!
# C89: LoopStrengthReduction (cmmc/Transforms/Loop/LoopStrengthReduction.cpp)

Modelled: `buildAddRec`, `getPhiCount`, `tryExpandSCEV` and the walk over the function (l.38-118 and l.190-214), with the results of
SCEVAnalysis and DominateAnalysis computed before the walk, as in the code. Not modelled: `tryExpandMulAddRecWithLoopInv` (l.120-187).
-/
namespace Cmmc.SSA

section
variable {L : Lang}

/-- `isPowerOf2` (Support/Bits.hpp:20-22): one bit of the 64-bit number is set -/
def isPow2 (z : Int) : Bool :=
  let u := (z % 2 ^ 64).toNat
  decide (u ≠ 0) && decide (u = 2 ^ Nat.log2 u)

/-- `mul(any(v1), int_(i1))(inst) && isPowerOf2(i1)` (LoopStrengthReduction.cpp:78-79); the pattern is commutative -/
def LoopOps.mulPow2 (O : LoopOps L) (i : Inst L.Op L.C) : Bool :=
  O.isMul i.op && match i.args with
    | [a, c] => match O.lit c with
      | some z => isPow2 z
      | none => match O.lit a with
        | some z => isPow2 z
        | none => false
    | _ => false

/-- `buildAddRec` (LoopStrengthReduction.cpp:38-60): the value, and the function with the induction variables. The empty list does not
occur (l.98). -/
def StrengthOps.build (S : StrengthOps L) (w H Lt b x : Nat) (keys : List Nat) : List Int → L.F → Opd L.C × L.F
  | [], F => (.cst (S.konst w 0), F)
  | [z], F => (.cst (S.konst w z), F)
  | z :: z' :: zs, F =>
    let r := S.build w H Lt b x keys (z' :: zs) F
    (.inst (Func.fresh r.2), Func.addIV r.2 H Lt b x keys (S.konst w z) S.addOp r.1 (Func.fresh r.2))

/-- `tryExpandSCEV` (LoopStrengthReduction.cpp:73-118) for instruction `x` of block `b`; `w` is the width of its type, `par` the flag
`beforeLoopParallel`, `maxPhiCount` is 9. The model leaves recurrences with a single coefficient alone; SCEVAnalysis builds none
(`scev_two`). -/
def StrengthOps.expand (S : StrengthOps L) (t : Dom.TS) (ls : List (LoopInfo L.C)) (tab : ScevTab) (par : Bool) (ty : Nat → Nat) (F : L.F) (e : Nat × Nat) : L.F :=
  match F.blk e.1 with
  | none => F
  | some B =>
    match B.inst? e.2 with
    | none => F
    | some i =>
      if S.isAdd i.op || S.mulPow2 i then F
      else
        match (tab.get e.2).bind Scev.flat with
        | none => F
        | some (l, cs) =>
          match ls[l]? with
          | none => F
          | some li =>
            if cs.length < 2 then F
            else if !t.dominate e.1 li.latch then F
            else
              match F.blk li.header with
              | none => F
              | some HB =>
                match HB.phis with
                | [] => F
                | ref :: _ =>
                  if HB.phis.length + cs.length - 1 > 9 then F
                  else if ref.inc.length ≠ 2 then F
                  else if par && decide (cs.length > 2) then F
                  else
                    let r := S.build (ty e.2) li.header li.latch e.1 e.2 (ref.inc.map Prod.fst) cs F
                    Func.replace r.2 e.2 r.1

/-- the instructions of the function before the pass, block by block -/
def Func.insts {Op C : Type} (F : Func Op C) : List (Nat × Nat) := F.order.flatMap (fun b => match F.blk b with | some B => B.body.map (fun i => (b, i.id)) | none => [])

/-- `LoopStrengthReduction::run` (LoopStrengthReduction.cpp:190-214) without `tryExpandMulAddRecWithLoopInv`. The analyses are those of
the function before the pass; new instructions are not in the table, and new increments are additions, so that only instructions of the
function before the pass are expanded. -/
def StrengthOps.lsr (S : StrengthOps L) (o : Orders) (par : Bool) (ty : Nat → Nat) (F : L.F) : Option L.F :=
  (F.dom o).map fun t =>
    let ls := S.loops F t
    let tab := S.scev F ls
    (Func.insts F).foldl (S.expand t ls tab par ty) F

/-! ## building the chain -/

/-- the same jumps -/
def SameCfg (F G : L.F) : Prop := F.entry = G.entry ∧ ∀ a d, Edge G a d ↔ Edge F a d

theorem SameCfg.path {F G : L.F} (h : SameCfg F G) {a d : Nat} {l : List Nat} : Dom.Path (Edge G) a d l ↔ Dom.Path (Edge F) a d l := by
  have : Edge G = Edge F := by funext a d; exact propext (h.2 a d)
  rw [this]

theorem SameCfg.live {F G : L.F} (h : SameCfg F G) {d : Nat} : Live G d ↔ Live F d := by
  unfold Live Dom.Reachable
  rw [← h.1]
  constructor
  · rintro ⟨l, hl⟩; exact ⟨l, h.path.1 hl⟩
  · rintro ⟨l, hl⟩; exact ⟨l, h.path.2 hl⟩

theorem SameCfg.domi {F G : L.F} (h : SameCfg F G) {a d : Nat} : Domi G a d ↔ Domi F a d := by
  constructor
  · intro hd l hl; exact hd l (by rw [← h.1]; exact h.path.2 hl)
  · intro hd l hl; exact hd l (by rw [h.1]; exact h.path.1 hl)

theorem SameCfg.trans {F G K : L.F} (h : SameCfg F G) (h' : SameCfg G K) : SameCfg F K := ⟨h.1.trans h'.1, fun a d => (h'.2 a d).trans (h.2 a d)⟩

theorem poly_congr {m : Int} : ∀ {as bs : List Int}, List.Forall₂ (fun a b => a ≡ b [ZMOD m]) as bs → ∀ n, poly as n ≡ poly bs n [ZMOD m] := by
  intro as bs h
  induction h with
  | nil => intro n; exact Int.ModEq.refl _
  | @cons a b as bs hab _ ih =>
    intro n
    rw [poly_sum, poly_sum]
    refine hab.add ?_
    induction n with
    | zero => exact Int.ModEq.refl _
    | succ k ihk => rw [Finset.sum_range_succ, Finset.sum_range_succ]; exact ihk.add (ih k)

/-- what is known after `build` -/
structure Built (S : StrengthOps L) (F : L.F) (ty : Nat → Nat) (w H Lt b x : Nat) (keys : List Nat) (p : Nat) (cs : List Int) (o : Opd L.C) (G : L.F) (ty' : Nat → Nat) (zs : List Int) : Prop where
  wf : LiveWf G
  refs : Func.Refs G
  typed : Typed S.toArith G ty'
  slot : Slot G H Lt b x keys p
  refines : Refines L F G
  grows : Grows F G
  cfg : SameCfg F G
  iv : IV S.toArith G H Lt w zs o
  congr : List.Forall₂ (fun a b => a ≡ b [ZMOD 2 ^ w]) zs cs
  types : ∀ y d, DefIn F y d → ty' y = ty y
  defs : ∀ y d, DefIn F y d → DefIn G y d

theorem build_ok (S : StrengthOps L) {F : L.F} {ty : Nat → Nat} {w H Lt b x p : Nat} {keys : List Nat} (W : LiveWf F) (R : Func.Refs F) (T : Typed S.toArith F ty) (P : Slot F H Lt b x keys p) (hw : ∃ c z, S.num c = some (w, z)) :
    ∀ (cs : List Int), cs ≠ [] → ∃ ty' zs, Built S F ty w H Lt b x keys p cs (S.build w H Lt b x keys cs F).1 (S.build w H Lt b x keys cs F).2 ty' zs := by
  intro cs
  induction cs with
  | nil => intro h; exact absurd rfl h
  | cons z cs ih =>
    intro _
    cases cs with
    | nil =>
      obtain ⟨z', h1, h2⟩ := S.konst_num w hw z
      exact ⟨ty, [z'], { wf := W, refs := R, typed := T, slot := P, refines := Refines.refl F, grows := fun d D hD => ⟨D, hD, fun _ h => h, fun _ h => h⟩, cfg := ⟨rfl, fun _ _ => Iff.rfl⟩, iv := .last h1, congr := .cons h2 .nil, types := fun _ _ _ => rfl, defs := fun _ _ h => h }⟩
    | cons z1 cs =>
      obtain ⟨ty1, zs, K⟩ := ih (by simp)
      unfold StrengthOps.build
      generalize S.build w H Lt b x keys (z1 :: cs) F = r at K ⊢
      dsimp only
      obtain ⟨z', h1, h2⟩ := S.konst_num w hw z
      have hfr : ∀ d, ¬ DefIn r.2 (Func.fresh r.2) d := fun d h => absurd (fresh_lt K.wf.listed h) (by omega)
      have hfr1 : ∀ d, ¬ DefIn r.2 (Func.fresh r.2 + 1) d := fun d h => absurd (fresh_lt K.wf.listed h) (by omega)
      refine ⟨ivTy ty1 (Func.fresh r.2) w, z' :: zs, ?_⟩
      exact { wf := addIV_wf K.wf K.refs K.slot K.iv.head hfr hfr1
              refs := addIV_refs K.refs K.slot K.iv.head
              typed := addIV_typed K.typed K.refs hfr hfr1 h1 K.iv
              slot := K.slot.addIV
              refines := K.refines.trans (addIV_refines K.wf K.refs K.typed K.slot hfr hfr1 S.addOp_add h1 K.iv)
              grows := by
                intro d D hD
                obtain ⟨D1, e1, e2, e3⟩ := K.grows d D hD
                obtain ⟨D2, e4, e5, e6⟩ := addIV_grows (H := H) (Lt := Lt) (b := b) (x := x) (keys := keys) (c := S.konst w z) (op := S.addOp) (o := r.1) (n := Func.fresh r.2) d D1 e1
                exact ⟨D2, e4, fun _ h => e5 (e2 h), fun _ h => e6 (e3 h)⟩
              cfg := K.cfg.trans ⟨rfl, fun a d => addIV_edge⟩
              iv := addIV_iv K.slot S.addOp_add h1 K.iv
              congr := .cons h2 K.congr
              types := by
                intro y d hy
                have hy' := K.defs y d hy
                rw [← K.types y d hy]
                unfold ivTy
                rw [if_neg]
                rintro (rfl | rfl)
                · exact hfr _ hy'
                · exact hfr1 _ hy'
              defs := fun y d hy => (addIV_defIn K.slot).2 (.inl (K.defs y d hy)) }

/-! ## one expansion -/

/-- the table is right, up to the width of the types -/
def GoodTabM (A : Arith L) (F : L.F) (ty : Nat → Nat) (ls : List (LoopInfo L.C)) (t : ScevTab) : Prop := ∀ x s l cs, t.get x = some s → s.flat = some (l, cs) →
  ∃ li, ls[l]? = some li ∧ ∃ f, Ev A F li.header li.latch true (.inst x) f ∧ ∀ n, f n ≡ poly cs n [ZMOD 2 ^ ty x]

theorem Ev.defIn {A : Arith L} {F : L.F} {H Lt : Nat} {fl : Bool} {x : Nat} {f : Nat → Int} (h : Ev A F H Lt fl (.inst x) f) : ∃ d, DefIn F x d := by
  generalize ho : (Opd.inst x : Opd L.C) = o at h
  cases h with
  | lit _ => simp at ho
  | add hD hi => simp only [Opd.inst.injEq] at ho; exact ⟨_, _, hD, List.mem_append_right _ (List.mem_map.2 ⟨_, hi, ho.symm⟩)⟩
  | mul hD hi => simp only [Opd.inst.injEq] at ho; exact ⟨_, _, hD, List.mem_append_right _ (List.mem_map.2 ⟨_, hi, ho.symm⟩)⟩
  | biv hB hφ => simp only [Opd.inst.injEq] at ho; exact ⟨_, _, hB, List.mem_append_left _ (List.mem_map.2 ⟨_, hφ, ho.symm⟩)⟩

/-- the invariant of the walk: `F` is the function before the pass -/
structure LsrInv (S : StrengthOps L) (F : L.F) (t : Dom.TS) (ls : List (LoopInfo L.C)) (tab : ScevTab) (ty : Nat → Nat) (G : L.F) (ty' : Nat → Nat) : Prop where
  wf : LiveWf G
  refs : Func.Refs G
  typed : Typed S.toArith G ty'
  types : ∀ y d, DefIn F y d → ty' y = ty y
  defs : ∀ y d, DefIn F y d → DefIn G y d
  good : GoodTabM S.toArith G ty' ls tab
  loops : ∀ l ∈ ls, IsLoop G l
  dom : ∀ a d, t.dominate a d = true → Live G d ∧ Domi G a d
  refines : Refines L F G

theorem expand_ok (S : StrengthOps L) {F : L.F} {t : Dom.TS} {ls : List (LoopInfo L.C)} {tab : ScevTab} {ty : Nat → Nat} {G : L.F} {ty' : Nat → Nat} (I : LsrInv S F t ls tab ty G ty')
    (par : Bool) (e : Nat × Nat) (hFe : DefIn F e.2 e.1) : ∃ ty2, LsrInv S F t ls tab ty (S.expand t ls tab par ty G e) ty2 := by
  obtain ⟨b, x⟩ := e
  unfold StrengthOps.expand
  dsimp only at hFe ⊢
  split
  · exact ⟨ty', I⟩
  · rename_i B hB
    split
    · exact ⟨ty', I⟩
    · rename_i i hi
      obtain ⟨him, hix⟩ := Block.inst?_mem hi
      split
      · exact ⟨ty', I⟩
      · rename_i hadd
        split
        · exact ⟨ty', I⟩
        · rename_i l cs hfl
          split
          · exact ⟨ty', I⟩
          · rename_i li hli
            split
            · exact ⟨ty', I⟩
            · rename_i hlen
              split
              · exact ⟨ty', I⟩
              · rename_i hdl
                split
                · exact ⟨ty', I⟩
                · rename_i HB hHB
                  split
                  · exact ⟨ty', I⟩
                  · rename_i ref rest hphis
                    split
                    · exact ⟨ty', I⟩
                    · split
                      · exact ⟨ty', I⟩
                      · rename_i hinc
                        split
                        · exact ⟨ty', I⟩
                        · -- the expansion
                          have W := I.wf
                          have hdl : t.dominate b li.latch = true := by simpa using hdl
                          obtain ⟨hLl, hbL⟩ := I.dom b li.latch hdl
                          have hadd : S.isAdd i.op = false := by
                            simp only [Bool.or_eq_true, not_or, Bool.not_eq_true] at hadd
                            exact hadd.1
                          obtain ⟨s, hs, hflat⟩ := Option.bind_eq_some_iff.1 hfl
                          obtain ⟨li', hli', f, hev, hf⟩ := I.good x s l cs hs hflat
                          rw [hli] at hli'
                          have := Option.some.inj hli'
                          subst this
                          have hLoop := I.loops li (List.mem_of_getElem? hli)
                          have hbl : Live G b := hbL.live hLl
                          have hxb : DefIn G x b := ⟨B, hB, List.mem_append_right _ (List.mem_map.2 ⟨i, him, hix⟩)⟩
                          have hHb : Domi G li.header b := hev.domi W rfl x b rfl hxb hbl
                          have href : ref ∈ HB.phis := by rw [hphis]; simp
                          have hHl : Live G li.header := hHb.live hbl
                          have hne : li.header ≠ G.entry := by
                            intro h
                            rw [h] at hHB
                            rw [W.entryPhis HB hHB] at href
                            simp at href
                          obtain ⟨q, hq, hqe, hnd⟩ := entering hHl hne
                          have hqL : q ≠ li.latch := by
                            rintro rfl
                            exact hnd hLoop.dom
                          obtain ⟨v1, hv1⟩ := W.phiAll li.header HB ref q hHB hHl href hqe hq
                          obtain ⟨v2, hv2⟩ := W.phiAll li.header HB ref li.latch hHB hHl href hLoop.edge hLl
                          have hkeys : ref.inc.map Prod.fst = [q, li.latch] ∨ ref.inc.map Prod.fst = [li.latch, q] := by
                            have hlen2 : ref.inc.length = 2 := by simpa using hinc
                            obtain ⟨e1, e2, he12⟩ := List.length_eq_two.1 hlen2
                            rw [he12] at hv1 hv2 ⊢
                            simp only [List.mem_cons, List.not_mem_nil, or_false] at hv1 hv2
                            rcases hv1 with rfl | rfl <;> rcases hv2 with h | h
                            · simp only [Prod.mk.injEq] at h; exact absurd h.1.symm hqL
                            · subst h; left; rfl
                            · subst h; right; rfl
                            · simp only [Prod.mk.injEq] at h; exact absurd h.1.symm hqL
                          have P : Slot G li.header li.latch b x (ref.inc.map Prod.fst) q :=
                            { live := hLl, edge := hLoop.edge, ref := ⟨HB, ref, hHB, href, rfl⟩, keys := hkeys, other := hqL, above := hHb, below := hbL, inst := ⟨B, hB, List.mem_map.2 ⟨i, him, hix⟩⟩ }
                          have hw : ∃ c z, S.num c = some (ty x, z) := by
                            rw [← I.types x b hFe]; exact hev.width I.typed _ rfl
                          obtain ⟨ty1, zs, K⟩ := build_ok S (w := ty x) W I.refs I.typed P hw cs (by rintro rfl; simp at hlen)
                          generalize S.build (ty x) li.header li.latch b x (ref.inc.map Prod.fst) cs G = r at K ⊢
                          -- the value is a phi
                          have hzl : zs.length = cs.length := K.congr.length_eq
                          have hiv := K.iv
                          obtain ⟨y, hy⟩ : ∃ y, r.1 = .inst y := by
                            generalize ho : r.1 = o at hiv
                            cases hiv with
                            | last => simp at hzl; omega
                            | more => exact ⟨_, rfl⟩
                          rw [hy] at hiv ⊢
                          obtain ⟨B1, hB1, _, hsub⟩ := K.grows b B hB
                          have hi1 : i ∈ B1.body := hsub him
                          have hxb1 : DefIn r.2 x b := K.defs x b hxb
                          have htx : ty1 x = ty x := by rw [K.types x b hxb, I.types x b hFe]
                          have hty : ty1 y = ty1 x := by
                            have := hiv.typed K.typed
                            simp only [Arith.oty, Option.some.injEq] at this
                            rw [this, htx]
                          have hev1 := hev.mono K.grows
                          have hpoly := poly_congr K.congr
                          have hf1 : ∀ n, f n ≡ poly zs n [ZMOD 2 ^ ty1 x] := by
                            intro n
                            have h1 := hf n
                            rw [I.types x b hFe] at h1
                            rw [htx]
                            exact h1.trans (hpoly n).symm
                          have hevy : Ev S.toArith r.2 li.header li.latch true (.inst y) (poly zs) := by
                            have h1 := hiv.ev
                            have : decide (1 < zs.length) = true := by simp; omega
                            rwa [this] at h1
                          subst hix
                          refine ⟨ty1, ?_⟩
                          have hcfg : SameCfg r.2 (Func.replace r.2 i.id (.inst y)) := ⟨rfl, fun a d => by unfold Func.replace; rw [Func.sub_edge]⟩
                          have hcfgG := K.cfg.trans hcfg
                          refine { wf := K.wf.replaceHead hxb1 hiv.head K.slot.above, refs := replaceHead_refs K.refs hiv.head, typed := replaceHead_typed K.typed hty, types := ?_, defs := ?_, good := ?_, loops := ?_, dom := ?_, refines := ?_ }
                          · intro y' d hy'
                            rw [K.types y' d (I.defs y' d hy'), I.types y' d hy']
                          · intro y' d hy'
                            exact (Func.sub_defIn _ _ _).2 (K.defs _ _ (I.defs y' d hy'))
                          · intro x' s' l' cs' hs' hfl'
                            obtain ⟨lj, hlj, f', hev', hf'⟩ := I.good x' s' l' cs' hs' hfl'
                            obtain ⟨d', hd'⟩ := hev'.defIn
                            obtain ⟨f2, hev2, hf2⟩ := (Ev.replace K.wf K.typed S.mul_add hB1 hi1 hadd hev1 hf1 hiv (hev'.mono K.grows)).2
                            refine ⟨lj, hlj, f2, hev2, fun n => ?_⟩
                            rw [K.types x' d' hd']
                            have h1 := hf2 (ty1 x') rfl n
                            rw [K.types x' d' hd'] at h1
                            exact h1.trans (hf' n)
                          · intro lj hlj
                            have := I.loops lj hlj
                            exact ⟨hcfgG.live.2 this.live, (hcfgG.2 _ _).2 this.edge, hcfgG.domi.2 this.dom⟩
                          · intro a d h
                            obtain ⟨h1, h2⟩ := I.dom a d h
                            exact ⟨hcfgG.live.2 h1, hcfgG.domi.2 h2⟩
                          · refine (I.refines.trans K.refines).trans ?_
                            refine refines_sub_live (Iter.point (H := li.header) (Lt := li.latch) K.wf K.typed) K.wf ?_
                            rintro d k env z hd ⟨n, hJ⟩ hav
                            by_cases hz : z = i.id
                            · subst hz
                              refine eval_one ?_ _
                              obtain ⟨d', h1, h2, h3⟩ := hav
                              have := K.wf.home h1 hxb1
                              subst this
                              have havx : Avail r.2 d k i.id := ⟨d', h1, h2, h3⟩
                              have havy : Avail r.2 d k y := by
                                obtain ⟨B2, hB2, hy2⟩ := hiv.head y rfl
                                exact ⟨li.header, ⟨B2, hB2, List.mem_append_left _ hy2⟩, K.slot.above.trans h2, fun e => ⟨B2, e ▸ hB2, .inl hy2⟩⟩
                              show env y = env i.id
                              rw [hJ _ _ _ hev1 havx, hJ _ _ _ hevy havy, hty]
                              exact congrArg some (S.int_mod _ (by first | exact hw | (rw [htx]; exact hw)) _ _ (hf1 n).symm)
                            · simp [one, hz, eval]

/-! ## recurrences have two coefficients or more -/

/-- a constant, or a recurrence with at least two operands -/
def Scev.two : Scev → Prop
  | .const _ => True
  | .addRec _ os => 2 ≤ os.length

theorem consts_length : ∀ {os : List Scev} {cs : List Int}, Scev.consts os = some cs → cs.length = os.length := by
  intro os
  induction os with
  | nil => intro cs h; simp only [Scev.consts, Option.some.injEq] at h; subst h; rfl
  | cons o os ih =>
    intro cs h
    cases o with
    | addRec _ _ => simp [Scev.consts] at h
    | const z =>
      simp only [Scev.consts, Option.map_eq_some_iff] at h
      obtain ⟨cs', h1, rfl⟩ := h
      simp [ih h1]

theorem foldAdds_length : ∀ {as bs rs : List Scev}, foldAdds as bs = some rs → as.length ≤ rs.length := by
  intro as
  induction as with
  | nil => intro bs rs _; simp
  | cons a as ih =>
    intro bs rs h
    cases bs with
    | nil => simp only [foldAdds, Option.some.injEq] at h; subst h; exact Nat.le_refl _
    | cons b bs =>
      simp only [foldAdds] at h
      split at h
      · rename_i c cs _ h2
        simp only [Option.some.injEq] at h
        subst h
        have := ih h2
        simp only [List.length_cons]; omega
      · simp at h

theorem foldMuls_length {b : Int} : ∀ {as rs : List Scev}, foldMuls as b = some rs → rs.length = as.length := by
  intro as
  induction as with
  | nil => intro rs h; simp only [foldMuls, Option.some.injEq] at h; subst h; rfl
  | cons a as ih =>
    intro rs h
    simp only [foldMuls] at h
    split at h
    · rename_i c cs _ h2
      simp only [Option.some.injEq] at h
      subst h
      simp [ih h2]
    · simp at h

theorem foldAdd_two {s t r : Scev} (hs : s.two) (h : foldAdd s t = some r) : r.two := by
  cases s with
  | const a =>
    cases t with
    | const b => simp only [foldAdd, Option.some.injEq] at h; subst h; trivial
    | addRec _ _ => simp [foldAdd] at h
  | addRec l os =>
    simp only [Scev.two] at hs
    cases t with
    | const b =>
      cases os with
      | nil => simp at hs
      | cons o os =>
        simp only [foldAdd, Option.map_eq_some_iff] at h
        obtain ⟨o', _, rfl⟩ := h
        simpa [Scev.two] using hs
    | addRec l' os' =>
      have h' : (if sameLoop l l' then (foldAdds os os').map (.addRec l) else none) = some r := by
        cases os <;> simpa only [foldAdd] using h
      split at h'
      · simp only [Option.map_eq_some_iff] at h'
        obtain ⟨rs, h1, rfl⟩ := h'
        have := foldAdds_length h1
        simp only [Scev.two]; omega
      · simp at h'

theorem foldMul_two {s t r : Scev} (hs : s.two) (ht : t.two) (h : foldMul s t = some r) : r.two := by
  cases s with
  | const a =>
    cases t with
    | const b => simp only [foldMul, Option.some.injEq] at h; subst h; trivial
    | addRec _ _ => simp [foldMul] at h
  | addRec l os =>
    simp only [Scev.two] at hs
    cases t with
    | const b =>
      simp only [foldMul, Option.map_eq_some_iff] at h
      obtain ⟨rs, h1, rfl⟩ := h
      simp only [Scev.two, foldMuls_length h1]; exact hs
    | addRec l' os' =>
      simp only [foldMul] at h
      split at h
      · split at h
        · rename_i as bs h1 h2
          simp only [Option.some.injEq] at h
          subst h
          simp only [Scev.two] at ht ⊢
          simp only [mulOps, List.length_map, List.length_range, consts_length h1, consts_length h2]
          omega
        · simp at h
      · simp at h

/-- every recurrence in the table has at least two coefficients -/
theorem scev_two (O : LoopOps L) (F : L.F) (ls : List (LoopInfo L.C)) : ∀ x s, (O.scev F ls).get x = some s → s.two := by
  have hput : ∀ {t : ScevTab} {y r}, (∀ x s, t.get x = some s → s.two) → r.two → ∀ x s, (t.put y r).get x = some s → s.two := by
    intro t y r ht hr x s h
    rcases ScevTab.get_put h with h | ⟨_, rfl⟩
    · exact ht x s h
    · exact hr
  have hquery : ∀ {t : ScevTab} {o s}, (∀ x s, t.get x = some s → s.two) → O.query t o = some s → s.two := by
    intro t o s ht h
    cases o with
    | inst x => exact ht x s h
    | cst c =>
      simp only [LoopOps.query, Option.map_eq_some_iff] at h
      obtain ⟨_, _, rfl⟩ := h
      trivial
  have hmatch : ∀ {loop t x i n s}, O.tryMatch F loop t x i n = some s → s.two := by
    intro loop t x i n s h
    unfold LoopOps.tryMatch at h
    split at h
    · simp only [Option.some.injEq] at h; subst h; simp [Scev.two]
    · simp at h
  have hphi : ∀ {loop t φ}, (∀ x s, ScevTab.get t x = some s → s.two) → ∀ x s, (O.bivPhi F loop t φ).get x = some s → s.two := by
    intro loop t φ ht
    unfold LoopOps.bivPhi
    split
    · split
      · rename_i h; exact hput ht (hmatch h)
      · split
        · rename_i h; exact hput ht (hmatch h)
        · exact ht
    · exact ht
  have hinst : ∀ {t i}, (∀ x s, ScevTab.get t x = some s → s.two) → ∀ x s, (O.givInst t i).get x = some s → s.two := by
    intro t i ht
    unfold LoopOps.givInst
    split
    · split
      · split
        · rename_i h1 h2
          split
          · rename_i h; exact hput ht (foldAdd_two (hquery ht h1) h)
          · exact ht
        · exact ht
      · split
        · split
          · rename_i h1 h2
            split
            · rename_i h; exact hput ht (foldMul_two (hquery ht h1) (hquery ht h2) h)
            · exact ht
          · exact ht
        · split
          · split
            · split
              · exact hput ht (by simp [Scev.two])
              · exact ht
            · exact ht
          · exact ht
    · exact ht
  have hfold : ∀ {α : Type} (g : ScevTab → α → ScevTab) (l : List α) (t : ScevTab), (∀ t a, (∀ x s, ScevTab.get t x = some s → s.two) → ∀ x s, (g t a).get x = some s → s.two) →
      (∀ x s, t.get x = some s → s.two) → ∀ x s, (l.foldl g t).get x = some s → s.two := by
    intro α g l
    induction l with
    | nil => intro t _ ht; exact ht
    | cons a l ih => intro t hg ht; exact ih _ hg (hg t a ht)
  unfold LoopOps.scev LoopOps.givs LoopOps.bivs
  refine hfold _ _ _ ?_ (hfold _ _ _ ?_ ?_)
  · intro t b ht
    split
    · exact hfold _ _ _ (fun t i ht => hinst ht) ht
    · exact ht
  · intro t b ht
    split
    · exact hfold _ _ _ (fun t i ht => hphi ht) ht
    · exact ht
  · intro x s h; simp [ScevTab.get] at h

/-! ## the pass -/

/-- C89 (without `tryExpandMulAddRecWithLoopInv`, and for functions without `sdiv`): take a function whose live part is in SSA form, whose
operands exist and are typed. LoopStrengthReduction returns a function whose live part is in SSA form, and which behaves like the one
before the pass: every result, every halt and every output of a run in which nothing undefined happens, with wraparound of all new
additions. Missing: the expansion of products with a loop-invariant factor, and `sdiv`, for which SCEVAnalysis is wrong. -/
theorem C89_loopStrengthReduction_partial (S : StrengthOps L) {F : L.F} (W : LiveWf F) (R : Func.Refs F) {ty : Nat → Nat} (T : Typed S.toArith F ty) (o : Orders) (par : Bool)
    (hdiv : ∀ b B i, F.blk b = some B → i ∈ B.body → S.isDiv i.op = false) :
    ∃ G, S.lsr o par ty F = some G ∧ LiveWf G ∧ Refines L F G := by
  obtain ⟨t, ht, _, hdom, _⟩ := dom_spec o W.nodup W.listed
  refine ⟨_, by unfold StrengthOps.lsr; rw [ht]; rfl, ?_⟩
  dsimp only
  have hd : ∀ a b, t.dominate a b = true → Live F b ∧ Domi F a b := fun a b h => (hdom a b).mp h
  have hl : ∀ l ∈ S.loops F t, IsLoop F l := loops_isLoop (O := S.toLoopOps) hd
  have I0 : LsrInv S F t (S.loops F t) (S.scev F (S.loops F t)) ty F ty :=
    { wf := W, refs := R, typed := T, types := fun _ _ _ => rfl, defs := fun _ _ h => h, good := by
        intro x s l cs h1 h2
        obtain ⟨li, h3, f, h4, h5⟩ := (scev_good (O := S.toLoopOps) W hl hdiv x s h1).2 l cs h2
        exact ⟨li, h3, f, h4, fun n => by rw [h5]⟩
      loops := hl, dom := hd, refines := Refines.refl F }
  have key : ∀ (es : List (Nat × Nat)) (G : L.F) (ty' : Nat → Nat), (∀ e ∈ es, DefIn F e.2 e.1) → LsrInv S F t (S.loops F t) (S.scev F (S.loops F t)) ty G ty' →
      ∃ ty2, LsrInv S F t (S.loops F t) (S.scev F (S.loops F t)) ty (es.foldl (S.expand t (S.loops F t) (S.scev F (S.loops F t)) par ty) G) ty2 := by
    intro es
    induction es with
    | nil => intro G ty' _ I; exact ⟨ty', I⟩
    | cons e es ih =>
      intro G ty' he I
      obtain ⟨ty2, I2⟩ := expand_ok S I par e (he e (by simp))
      exact ih _ ty2 (fun e' h => he e' (by simp [h])) I2
  obtain ⟨ty2, I2⟩ := key (Func.insts F) F ty (by
    rintro ⟨b, x⟩ he
    obtain ⟨b', _, hm⟩ := List.mem_flatMap.1 he
    split at hm
    · rename_i B hB
      obtain ⟨i, hi, h1⟩ := List.mem_map.1 hm
      simp only [Prod.mk.injEq] at h1
      obtain ⟨rfl, rfl⟩ := h1
      exact ⟨B, hB, List.mem_append_right _ (List.mem_map_of_mem hi)⟩
    · simp at hm) I0
  exact ⟨I2.wf, I2.refines⟩

end
end Cmmc.SSA
