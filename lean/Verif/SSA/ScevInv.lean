import Verif.SSA.Scev
import Verif.SSA.LiveEqns
import Verif.SSA.Cse
import Verif.SSA.ToSelectRun
/-!
# What the values of a loop are in iteration `n`

`Ev H Lt fl o f`: a derivation that operand `o` has the value `f n` in iteration `n` of the loop with header `H` and latch `Lt`
(`fl = false`: it does not depend on the loop). `Iter.inv`: the derivations are right at every point of every run.
-/
namespace Cmmc.SSA

/-- integer arithmetic of the IR: `int w z` is the value of an integer type of width `w` that represents `z` (modulo `2^w`), the
constants `num` of that type, and the opcodes `add` and `mul`. Operands of different types are rejected by the verifier; the model does
not say what the opcodes do then. -/
structure Arith (L : Lang) where
  int : Nat → Int → L.V
  num : L.C → Option (Nat × Int)
  isAdd : L.Op → Bool
  isMul : L.Op → Bool
  num_val : ∀ c w z, num c = some (w, z) → L.cval c = int w z
  add_sem : ∀ op w a b m, isAdd op = true → L.sem op [int w a, int w b] m = .ok (int w (a + b)) m []
  mul_sem : ∀ op w a b m, isMul op = true → L.sem op [int w a, int w b] m = .ok (int w (a * b)) m []

section
variable {L : Lang} (A : Arith L)

/-- the type of an operand; `none`: not an integer constant -/
def Arith.oty (ty : Nat → Nat) : Opd L.C → Option Nat
  | .inst x => some (ty x)
  | .cst c => (A.num c).map Prod.fst

/-- the types the verifier checks (IR/Instruction.cpp, `BinaryInst::verify`, `PhiInst::verify`): operands and result of an addition or
multiplication, and incoming values and result of a phi, have the same type -/
structure Typed (F : L.F) (ty : Nat → Nat) : Prop where
  op : ∀ b B i, F.blk b = some B → i ∈ B.body → (A.isAdd i.op = true ∨ A.isMul i.op = true) → ∀ o ∈ i.args, ∀ t, A.oty ty o = some t → t = ty i.id
  phi : ∀ b B p, F.blk b = some B → p ∈ B.phis → ∀ q o, (q, o) ∈ p.inc → ∀ t, A.oty ty o = some t → t = ty p.id

/-- derivations of the values in iteration `n` -/
inductive Ev (F : L.F) (H Lt : Nat) : Bool → Opd L.C → (Nat → Int) → Prop
  | lit {c w z} : A.num c = some (w, z) → Ev F H Lt false (.cst c) (fun _ => z)
  | add {d D i o1 o2 b1 b2 f g} : F.blk d = some D → i ∈ D.body → A.isAdd i.op = true → i.args = [o1, o2] → Ev F H Lt b1 o1 f → Ev F H Lt b2 o2 g →
      Ev F H Lt (b1 || b2) (.inst i.id) (fun n => f n + g n)
  | mul {d D i o1 o2 b1 b2 f g} : F.blk d = some D → i ∈ D.body → A.isMul i.op = true → i.args = [o1, o2] → Ev F H Lt b1 o1 f → Ev F H Lt b2 o2 g →
      Ev F H Lt (b1 || b2) (.inst i.id) (fun n => f n * g n)
  | biv {B φ p c w z d D j o b g} : F.blk H = some B → φ ∈ B.phis → (φ.inc = [(p, .cst c), (Lt, .inst j.id)] ∨ φ.inc = [(Lt, .inst j.id), (p, .cst c)]) →
      p ≠ Lt → A.num c = some (w, z) → F.blk d = some D → j ∈ D.body → A.isAdd j.op = true →
      (j.args = [.inst φ.id, o] ∨ j.args = [o, .inst φ.id]) → Ev F H Lt b o g →
      Ev F H Lt true (.inst φ.id) (fun n => z + ∑ i ∈ Finset.range n, g i)

variable {A} {F : L.F} {H Lt : Nat} {ty : Nat → Nat}

theorem Ev.const {fl : Bool} {o : Opd L.C} {f : Nat → Int} (h : Ev A F H Lt fl o f) : fl = false → ∀ n m, f n = f m := by
  induction h with
  | lit _ => intro _ n m; rfl
  | add _ _ _ _ _ _ ih1 ih2 =>
    intro hf n m
    rw [Bool.or_eq_false_iff] at hf
    dsimp only; rw [ih1 hf.1 n m, ih2 hf.2 n m]
  | mul _ _ _ _ _ _ ih1 ih2 =>
    intro hf n m
    rw [Bool.or_eq_false_iff] at hf
    dsimp only; rw [ih1 hf.1 n m, ih2 hf.2 n m]
  | biv => intro hf; simp at hf

/-- what varies in the loop is computed below its header -/
theorem Ev.domi (W : LiveWf F) {fl : Bool} {o : Opd L.C} {f : Nat → Int} (h : Ev A F H Lt fl o f) : fl = true → ∀ x d, o = .inst x → DefIn F x d → Live F d → Domi F H d := by
  have args : ∀ {d D i o1 o2 x e} {b1 b2 : Bool}, F.blk d = some D → i ∈ D.body → i.args = [o1, o2] → Opd.inst i.id = (.inst x : Opd L.C) → DefIn F x e → Live F e →
      (b1 || b2) = true → (b1 = true → ∃ y, o1 = .inst y) → (b2 = true → ∃ y, o2 = .inst y) →
      (b1 = true → ∀ x d, o1 = .inst x → DefIn F x d → Live F d → Domi F H d) → (b2 = true → ∀ x d, o2 = .inst x → DefIn F x d → Live F d → Domi F H d) → Domi F H e := by
    intro d D i o1 o2 x e b1 b2 hD hi ha hx he hl hb hy1 hy2 ih1 ih2
    simp only [Opd.inst.injEq] at hx
    subst hx
    have hde : d = e := W.home ⟨D, hD, List.mem_append_right _ (List.mem_map.2 ⟨i, hi, rfl⟩)⟩ he
    subst hde
    have go : ∀ o, o ∈ i.args → (∃ y, o = .inst y) → (∀ x d, o = .inst x → DefIn F x d → Live F d → Domi F H d) → Domi F H d := by
      rintro o ho ⟨y, rfl⟩ ih
      obtain ⟨h', h1, h2⟩ := W.use d D y hD hl (.inl ⟨i, hi, ho⟩)
      exact (ih y h' rfl h1 (h2.live hl)).trans h2
    rcases Bool.or_eq_true_iff.mp hb with hb | hb
    · exact go o1 (by simp [ha]) (hy1 hb) (ih1 hb)
    · exact go o2 (by simp [ha]) (hy2 hb) (ih2 hb)
  have isInst : ∀ {fl o f}, Ev A F H Lt fl o f → fl = true → ∃ y, o = .inst y := by
    intro fl o f h
    cases h with
    | lit _ => intro hf; simp at hf
    | add => intro _; exact ⟨_, rfl⟩
    | mul => intro _; exact ⟨_, rfl⟩
    | biv => intro _; exact ⟨_, rfl⟩
  induction h with
  | lit _ => intro hf; simp at hf
  | add hD hi _ ha h1 h2 ih1 ih2 => intro hf x e hx he hl; exact args hD hi ha hx he hl hf (isInst h1) (isInst h2) ih1 ih2
  | mul hD hi _ ha h1 h2 ih1 ih2 => intro hf x e hx he hl; exact args hD hi ha hx he hl hf (isInst h1) (isInst h2) ih1 ih2
  | biv hB hφ _ _ _ _ _ _ _ _ _ =>
    intro _ x e hx he _
    simp only [Opd.inst.injEq] at hx
    subst hx
    rw [← W.home ⟨_, hB, List.mem_append_left _ (List.mem_map.2 ⟨_, hφ, rfl⟩)⟩ he]
    exact fun p hp => path_end hp

/-- the number of the iteration after the jump from `q` to `b`: entering the header from the latch starts the next iteration, entering it
from anywhere else starts the loop -/
def Iter.next (H Lt n q b : Nat) : Nat := if b = H then (if q = Lt then n + 1 else 0) else n

/-- all derivations are right at a point -/
def Iter.J (A : Arith L) (F : L.F) (ty : Nat → Nat) (H Lt n b k : Nat) (env : Env L) : Prop :=
  ∀ fl x f, Ev A F H Lt fl (.inst x) f → Avail F b k x → env x = some (A.int (ty x) (f n))

/-- operands -/
theorem Iter.J.opd {n b k : Nat} {env : Env L} (hJ : Iter.J A F ty H Lt n b k env) {fl : Bool} {o : Opd L.C} {f : Nat → Int} (h : Ev A F H Lt fl o f)
    (hav : ∀ x, o = .inst x → Avail F b k x) : ∃ t, A.oty ty o = some t ∧ eval L env o = some (A.int t (f n)) := by
  cases o with
  | inst x => exact ⟨ty x, rfl, hJ fl x f h (hav x rfl)⟩
  | cst c =>
    cases h with
    | @lit _ w z hn => exact ⟨w, by simp [Arith.oty, hn], by rw [eval, A.num_val c w z hn]⟩

theorem Iter.J.entry (W : LiveWf F) : Iter.J A F ty H Lt 0 F.entry 0 (fun _ => none) := by
  rintro fl x f _ ⟨d, hd, hdom, hin⟩
  have hd := domi_entry hdom
  obtain ⟨B, hB, hm⟩ := hin hd
  rw [W.entryPhis B hB] at hm
  simp at hm

theorem Iter.J.inst (W : LiveWf F) (T : Typed A F ty) {n b k : Nat} {B : L.B} {i : Inst L.Op L.C} {env : Env L} {vs : List L.V} {v : L.V} {m m' : L.M} {es : List L.E}
    (hb : Live F b) (hB : F.blk b = some B) (hi : B.body[k]? = some i) (hJ : Iter.J A F ty H Lt n b k env) (hvs : evals L env i.args = some vs)
    (hs : L.sem i.op vs m = .ok v m' es) : Iter.J A F ty H Lt n b (k + 1) (setEnv L env i.id v) := by
  intro fl x f hE hav
  have hna := W.not_avail hB hi
  have him := List.mem_of_getElem? hi
  rcases avail_succ hB hi hav with h | h
  · have hne : x ≠ i.id := fun e => hna (e ▸ h)
    simp only [setEnv, if_neg hne]
    exact hJ fl x f hE h
  · have two : ∀ {o1 o2 b1 b2 f g}, i.args = [o1, o2] → (A.isAdd i.op = true ∨ A.isMul i.op = true) → Ev A F H Lt b1 o1 f → Ev A F H Lt b2 o2 g →
        vs = [A.int (ty i.id) (f n), A.int (ty i.id) (g n)] := by
      intro o1 o2 b1 b2 f g ha hop h1 h2
      obtain ⟨t1, e1, e2⟩ := hJ.opd h1 (fun y hy => W.use_avail hB hb hi (by rw [ha, hy]; simp))
      obtain ⟨t2, e3, e4⟩ := hJ.opd h2 (fun y hy => W.use_avail hB hb hi (by rw [ha, hy]; simp))
      have ht1 := T.op b B i hB him hop o1 (by simp [ha]) t1 e1
      have ht2 := T.op b B i hB him hop o2 (by simp [ha]) t2 e3
      subst ht1
      rw [ha] at hvs
      simp only [evals, e2, e4, Option.some.injEq] at hvs
      rw [← hvs, ht2]
    generalize ho : (.inst x : Opd L.C) = o at hE
    cases hE with
    | lit _ => simp at ho
    | @add d D j o1 o2 b1 b2 f g hD hj hop ha h1 h2 =>
      simp only [Opd.inst.injEq] at ho
      have hij : j = i := W.toShape.inst_unique hD hB hj him (ho.symm.trans h)
      subst hij
      have := two ha (.inl hop) h1 h2
      subst this
      rw [A.add_sem _ _ _ _ _ hop] at hs
      simp only [Res.ok.injEq] at hs
      simp only [setEnv, h, if_true, hs.1]
    | @mul d D j o1 o2 b1 b2 f g hD hj hop ha h1 h2 =>
      simp only [Opd.inst.injEq] at ho
      have hij : j = i := W.toShape.inst_unique hD hB hj him (ho.symm.trans h)
      subst hij
      have := two ha (.inr hop) h1 h2
      subst this
      rw [A.mul_sem _ _ _ _ _ hop] at hs
      simp only [Res.ok.injEq] at hs
      simp only [setEnv, h, if_true, hs.1]
    | biv hB' hφ _ _ _ _ _ _ _ _ =>
      simp only [Opd.inst.injEq] at ho
      exact absurd (ho.symm.trans h) (W.toShape.phi_inst hB' hB hφ him)

theorem Iter.J.enter (W : LiveWf F) (T : Typed A F ty) {n q b : Nat} {B Q : L.B} {env env' : Env L} (hq : Live F q) (he : Edge F q b) (hQ : F.blk q = some Q)
    (hB : F.blk b = some B) (hJ : Iter.J A F ty H Lt n q Q.body.length env) (hen : enterPhis L (some q) env B.phis env = some env') :
    Iter.J A F ty H Lt (Iter.next H Lt n q b) b 0 env' := by
  intro fl x f hE hav
  have hbl := hq.edge he
  rcases W.avail_enter he hQ hB hav with hm | ⟨hx, hq'⟩
  · obtain ⟨ψ, hψ, hψx⟩ := List.mem_map.1 hm
    have hnd : (B.phis.map Phi.id).Nodup := (List.nodup_append.mp (W.block_ids hB)).1
    have hval := (enterPhis_val hen hnd ψ hψ).1
    rw [hψx] at hval
    rw [hval]
    generalize ho : (.inst x : Opd L.C) = o at hE
    cases hE with
    | lit _ => simp at ho
    | add hD hj hop ha h1 h2 =>
      simp only [Opd.inst.injEq] at ho
      exact absurd (hψx.trans ho) (W.toShape.phi_inst hB hD hψ hj)
    | mul hD hj hop ha h1 h2 =>
      simp only [Opd.inst.injEq] at ho
      exact absurd (hψx.trans ho) (W.toShape.phi_inst hB hD hψ hj)
    | @biv B' φ p c w z d D j o bo g hB' hφ hinc hp hn hD hj hop ha ho' =>
      simp only [Opd.inst.injEq] at ho
      have hbH : b = H := W.home (i := x) ⟨B, hB, List.mem_append_left _ hm⟩ ⟨B', hB', List.mem_append_left _ (List.mem_map.2 ⟨φ, hφ, ho.symm⟩)⟩
      subst hbH
      have := Option.some.inj (hB.symm.trans hB')
      subst this
      have hφψ : ψ = φ := List.inj_on_of_nodup_map hnd hψ hφ (hψx.trans ho)
      subst hφψ
      have hmc : (p, .cst c) ∈ ψ.inc := by rcases hinc with h | h <;> simp [h]
      have hmy : (Lt, .inst j.id) ∈ ψ.inc := by rcases hinc with h | h <;> simp [h]
      have hw : w = ty ψ.id := T.phi _ B ψ hB hψ p _ hmc w (by simp [Arith.oty, hn])
      have hev : Ev A F b Lt true (.inst ψ.id) (fun n => z + ∑ i ∈ Finset.range n, g i) := .biv hB hψ hinc hp hn hD hj hop ha ho'
      unfold Iter.next
      rw [if_pos rfl]
      by_cases hqL : q = Lt
      · subst hqL
        rw [if_pos rfl]
        have hat : ψ.at q = some (.inst j.id) := by
          unfold Phi.at
          rcases hinc with h | h
          · simp [h, hp]
          · simp [h]
        unfold phiVal
        dsimp only
        rw [hat]
        dsimp only [eval]
        have hty : ty j.id = ty ψ.id := T.phi _ B ψ hB hψ q _ hmy _ rfl
        have hya := W.phi_avail hB hbl hQ hq hψ hmy
        rcases ha with ha | ha
        · have := hJ _ j.id _ (.add hD hj hop ha hev ho') hya
          rw [this, hty, ho, Finset.sum_range_succ, add_assoc]
        · have := hJ _ j.id _ (.add hD hj hop ha ho' hev) hya
          rw [this, hty, ho, Finset.sum_range_succ]
          congr 2; ring
      · rw [if_neg hqL]
        -- the other entry
        obtain ⟨v, hv⟩ := W.phiAll b B ψ q hB hbl hψ he hq
        have hqp : q = p := by
          rcases hinc with h | h <;> simp only [h, List.mem_cons, Prod.mk.injEq, List.not_mem_nil, or_false] at hv <;> tauto
        subst hqp
        have hat : ψ.at q = some (.cst c) := by
          unfold Phi.at
          rcases hinc with h | h
          · simp [h]
          · simp [h, Ne.symm hqL]
        unfold phiVal
        dsimp only
        rw [hat]
        dsimp only [eval]
        rw [A.num_val c w z hn, hw, ho]
        simp
  · rw [enterPhis_other hen x (fun h => hx (List.mem_append_left _ h)), hJ fl x f hE hq']
    unfold Iter.next
    by_cases hbH : b = H
    · subst hbH
      cases fl with
      | false => rw [hE.const rfl n]
      | true =>
        obtain ⟨d, hd, hdom, hin⟩ := hav
        have hdb : d ≠ b := fun e => hx (by subst e; obtain ⟨B', hB', hm'⟩ := hd; rwa [← Option.some.inj (hB'.symm.trans hB)])
        exact absurd (hdom.antisymm (hE.domi W rfl x d rfl hd (hdom.live hbl)) hbl) hdb
    · rw [if_neg hbH]

/-! ## all points of all runs -/

/-- for the passes: in every state of a run the derivations are right for some number of the iteration -/
theorem Iter.point (W : LiveWf F) (T : Typed A F ty) : PointInv F (fun b k env => ∃ n, Iter.J A F ty H Lt n b k env) where
  entry := ⟨0, Iter.J.entry W⟩
  enter q b B Q env env' hq he hQ hB hJ hen := by obtain ⟨n, hn⟩ := hJ; exact ⟨_, hn.enter W T hq he hQ hB hen⟩
  inst b k B i env vs v m m' es hb hB hi hJ hvs hs := by obtain ⟨n, hn⟩ := hJ; exact ⟨n, hn.inst W T hb hB hi hvs hs⟩

/-- the state after `t` steps, if the run is still going on -/
def stAt (L : Lang) (F : L.F) (m : L.M) : Nat → Option (St L)
  | 0 => some (start L F m)
  | t + 1 =>
    match stAt L F m t with
    | none => none
    | some s => match SSA.step L F s with
      | .inl s' => some s'
      | .inr _ => none

/-- specification: the number of the iteration of the loop `(H, Lt)` after `t` steps — how many times the run has jumped from the latch to
the header since it last came to the header from elsewhere -/
def iterAt (L : Lang) (F : L.F) (m : L.M) (H Lt : Nat) : Nat → Nat
  | 0 => 0
  | t + 1 =>
    match stAt L F m t, stAt L F m (t + 1) with
    | some s, some s' => if s'.cur = H then (if s.cur = Lt then iterAt L F m H Lt t + 1 else 0) else iterAt L F m H Lt t
    | _, _ => iterAt L F m H Lt t

theorem stAt_inv (W : LiveWf F) (T : Typed A F ty) {m : L.M} : ∀ {t : Nat} {s s' : St L}, stAt L F m t = some s → SSA.step L F s = .inl s' →
    Live F s.cur ∧ s'.pred = some s.cur ∧ Edge F s.cur s'.cur ∧ ∃ B, F.blk s.cur = some B ∧ Iter.J A F ty H Lt (iterAt L F m H Lt t) s.cur B.body.length s'.env := by
  -- one block
  have blockJ : ∀ {n : Nat} {s s' : St L} {B : L.B} {env : Env L}, Live F s.cur → F.blk s.cur = some B → enterPhis L s.pred s.env B.phis s.env = some env →
      Iter.J A F ty H Lt n s.cur 0 env → SSA.step L F s = .inl s' → Iter.J A F ty H Lt n s.cur B.body.length s'.env := by
    intro n s s' B env hl hB hen hJ hs
    unfold SSA.step at hs
    rw [hB] at hs
    simp only [stepBlk, hen] at hs
    split at hs
    · simp at hs
    · simp at hs
    · rename_i env2 m2 es2 hbody
      have key : ∀ (r k : Nat) (env : Env L) (m : L.M) (es : List L.E) {env' m' es'}, B.body.length - k = r → Iter.J A F ty H Lt n s.cur k env →
          execBody L (B.body.drop k) env m es = .ok env' m' es' → k ≤ B.body.length → Iter.J A F ty H Lt n s.cur B.body.length env' := by
        intro r
        induction r with
        | zero =>
          intro k env m es env' m' es' hn hq h hk
          have : k = B.body.length := by omega
          subst this
          rw [List.drop_length] at h
          simp only [execBody, BodyRes.ok.injEq] at h
          rw [← h.1]; exact hq
        | succ r ih =>
          intro k env m es env' m' es' hn hq h hk
          have hlt : k < B.body.length := by omega
          rw [List.drop_eq_getElem_cons hlt] at h
          simp only [execBody] at h
          split at h
          · simp at h
          · rename_i vs hvs
            split at h
            · rename_i v m1 es1 hsem
              exact ih (k + 1) _ _ _ (by omega) (hq.inst W T hl hB (List.getElem?_eq_getElem hlt) hvs hsem) h hlt
            · simp at h
            · simp at h
      have hq := key _ 0 env s.m s.tr rfl hJ (by rw [List.drop_zero]; exact hbody) (Nat.zero_le _)
      split at hs
      · simp at hs
      · simp at hs
      · simp only [Sum.inl.injEq] at hs
        subst hs
        exact hq
  intro t
  induction t with
  | zero =>
    intro s s' hst hs
    simp only [stAt, Option.some.injEq] at hst
    obtain ⟨hpred, B, hB, ht⟩ := step_target hs
    have hl : Live F s.cur := by subst hst; exact ⟨_, .single _⟩
    refine ⟨hl, hpred, ⟨B, hB, ht⟩, B, hB, ?_⟩
    have hB' := hB
    subst hst
    have hph := W.entryPhis B hB
    exact blockJ (env := fun _ => none) hl hB (by rw [hph]; rfl) (Iter.J.entry W) hs
  | succ t ih =>
    intro s s' hst hs
    simp only [stAt] at hst
    split at hst
    · simp at hst
    · rename_i s0 hs0
      split at hst
      · rename_i s1 hs1
        simp only [Option.some.injEq] at hst
        subst hst
        obtain ⟨h1, h2, h3, Q, hQ, hJ⟩ := ih hs0 hs1
        obtain ⟨hpred, B, hB, ht⟩ := step_target hs
        have hl := h1.edge h3
        refine ⟨hl, hpred, ⟨B, hB, ht⟩, B, hB, ?_⟩
        have hen : ∃ env, enterPhis L s1.pred s1.env B.phis s1.env = some env := by
          cases hc : enterPhis L s1.pred s1.env B.phis s1.env with
          | some env => exact ⟨env, rfl⟩
          | none =>
            unfold SSA.step at hs
            rw [hB] at hs
            simp [stepBlk, hc] at hs
        obtain ⟨env, hen⟩ := hen
        have hit : iterAt L F m H Lt (t + 1) = Iter.next H Lt (iterAt L F m H Lt t) s0.cur s1.cur := by
          have h5 : stAt L F m (t + 1) = some s1 := by simp only [stAt, hs0, hs1]
          simp only [iterAt, hs0, h5, Iter.next]
        rw [hit]
        have hen' := hen
        rw [h2] at hen'
        exact blockJ hl hB hen (hJ.enter W T h1 h3 hQ hB hen') hs
      · simp at hst

end
end Cmmc.SSA
