import Verif.SSA.TailSim
/-!
# TailCallEliminate: the loop computes what the recursion computes (2)
-/
namespace Cmmc.SSA
section
variable {L : Lang} {V : Conv L} {N : TailNm} {S : TailSel L.Op L.C} {accOp : L.Op → Option L.C} {F : L.F} {f b k : Nat} {as : List L.C} {K : TailKind L.Op L.C} {B : L.B}
  {call : Inst L.Op L.C} {D : L.V → Prop} {mul : L.V → L.V → L.V} {cF cG : CallSem L} {ws ws' vs0 : List L.V}

/-- what is needed of the opcodes for this kind of rewrite -/
def KindOk (V : Conv L) (S : TailSel L.Op L.C) (D : L.V → Prop) (mul : L.V → L.V → L.V) : TailKind L.Op L.C → Prop
  | .plain => True
  | .acc i _ _ c => AccOk V D mul i.op c
  | .first _ => SelOk V S

/-- the other operand of the accumulator, or the value returned instead, has a value -/
def OtherOk (D : L.V → Prop) (ev : Opd L.C → Option L.V) : TailKind L.Op L.C → Prop
  | .plain => True
  | .acc _ _ x _ => ∃ v, ev x = some v ∧ D v
  | .first x => ∃ v, ev x = some v

theorem eval_setEnv_ne {i : Nat} {v : L.V} {e : Env L} {o : Opd L.C} (h : o ≠ .inst i) : eval L (setEnv L e i v) o = eval L e o := by
  cases o with
  | cst c => rfl
  | inst j =>
    simp only [eval, setEnv]
    rw [if_neg]
    rintro rfl
    exact h rfl

theorem cv_of_nth {j : Nat} {c : L.C} {v : L.V} (hp : V.param c = some j) (hv : ws[j]? = some v) : V.cv ws c = v := by
  unfold Conv.cv
  rw [hp]
  simp only [hv, Option.getD_some]

theorem TailOk.opd_mem (h : TailOk V N S accOp F f b k as K B call) {o : Opd L.C} (ho : o ∈ call.args) : o ∈ B.opds := mem_opds_use (.inl ⟨call, h.call_mem, ho⟩)

theorem phi_at_b {x : Nat} {o o' : Opd L.C} (h : N.e0 ≠ b) : (⟨x, [(N.e0, o), (b, o')]⟩ : Phi L.C).at b = some o' := by
  unfold Phi.at
  rw [List.find?_cons_of_neg (by simpa using h), List.find?_cons_of_pos (by simp)]
  rfl

theorem phi_at_e {x : Nat} {o o' : Opd L.C} : (⟨x, [(N.e0, o), (b, o')]⟩ : Phi L.C).at N.e0 = some o := by
  unfold Phi.at
  rw [List.find?_cons_of_pos (by simp)]
  rfl

theorem TailOk.e0b (h : TailOk V N S accOp F f b k as K B call) : N.e0 ≠ b := fun e => h.names.e0 (e ▸ h.listed _ _ h.hB)

theorem opd_ne_inst {o : Opd L.C} {y : Nat} (h1 : o ≠ .inst y) (h2 : ∀ j, y ≠ N.ps j) : N.opd V.param o ≠ .inst y := by
  cases o with
  | inst i => exact h1
  | cst c =>
    simp only [TailNm.opd]
    split
    · intro e; cases e; exact h2 _ rfl
    · intro e; cases e

theorem exec_one {L : Lang} {i : Inst L.Op L.C} {e : Env L} {vs : List L.V} {v : L.V} {m : L.M} {tr : List L.E} (h1 : evals L e i.args = some vs) (h2 : L.sem i.op vs m = .ok v m []) :
    execBody L [i] e m tr = .ok (setEnv L e i.id v) m tr := by
  simp only [execBody, h1, h2, List.append_nil]

theorem evals_two {L : Lang} {e : Env L} {o1 o2 : Opd L.C} {a c : L.V} (h1 : eval L e o1 = some a) (h2 : eval L e o2 = some c) : evals L e [o1, o2] = some [a, c] := by
  simp only [evals, h1, h2]

theorem evals_three {L : Lang} {e : Env L} {o1 o2 o3 : Opd L.C} {a c d : L.V} (h1 : eval L e o1 = some a) (h2 : eval L e o2 = some c) (h3 : eval L e o3 = some d) :
    evals L e [o1, o2, o3] = some [a, c, d] := by
  simp only [evals, h1, h2, h3]

/-- the new code behind the eliminated call, up to the loop header -/
theorem TailOk.rest (h : TailOk V N S accOp F f b k as K B call) (hK : KindOk V S D mul K) {ge te : Env L} {m : L.M} {tr : List L.E} {ext : List (Nat × L.V)} {comb : L.V → L.V} (hl : Live F b)
    (hst : TailSt N D mul ext comb K) (he : TailEnv V N as ws ext ge te) (hws : evals (V.lang cF ws) ge call.args = some ws') (hx : OtherOk D (eval (V.lang cF ws) ge) K) :
    ∃ te3 ext' comb' te4, execBody (V.lang cG vs0) (N.rest V.param S b K) te m tr = .ok te3 m tr ∧ TailSt N D mul ext' comb' K ∧
      enterPhis (V.lang cG vs0) (some b) te3 (N.phis V.param S as b call.args K) te3 = some te4 ∧ TailEnv V N as ws' ext' (fun _ => none) te4 ∧
      ∀ (v : Option L.V) mm es ge5 m5 es5 r, (B.term = .ret none → v = none) → D (v.getD V.void) →
        execBody (V.lang cF ws) (B.body.drop (k + 1)) (setEnv L ge call.id (v.getD V.void)) mm es = .ok ge5 m5 es5 → evalTerm (V.lang cF ws) ge5 B.term = .ret r →
        m5 = mm ∧ es5 = es ∧ comb (r.getD V.void) = comb' (v.getD V.void) := by
  have hsp := tailKind_spec h.kind
  have hlen := evals_length hws
  -- the arguments of the recursive call
  have harg : ∀ te3 : Env L, (∀ o ∈ call.args, eval (V.lang cG vs0) te3 (N.opd V.param o) = eval (V.lang cG vs0) te (N.opd V.param o)) → ∀ j c o, as[j]? = some c → call.args[j]? = some o →
      phiVal (V.lang cG vs0) (some b) te3 ⟨N.ps j, [(N.e0, .cst c), (b, N.opd V.param o)]⟩ = some (V.cv ws' c) := by
    intro te3 hte j c o hj ho
    simp only [phiVal]
    rw [phi_at_b h.e0b]
    simp only
    rw [hte o (List.mem_of_getElem? ho)]
    have hn := evals_nth hws j o ho
    have hlt : j < ws'.length := by rw [hlen]; exact (List.getElem?_eq_some_iff.1 ho).1
    rw [List.getElem?_eq_getElem hlt] at hn
    rw [he.eval (cG := cG) (vs0 := vs0) (h.pars b B h.hB o (h.opd_mem (List.mem_of_getElem? ho))) hn]
    rw [cv_of_nth (h.asPar j c hj) (List.getElem?_eq_getElem hlt)]
  cases K with
  | plain =>
    obtain ⟨hd, ht⟩ := hsp
    obtain ⟨rfl, rfl⟩ := hst
    obtain ⟨te4, h4, h5⟩ := hdr (cG := cG) (vs0 := vs0) (ws := ws') h (q := b) (te := te) (ext := []) (comb := id) (D := D) (mul := mul) ⟨rfl, rfl⟩ (by simp) (by simp [TailNm.kphis])
      (harg te (fun _ _ => rfl))
    refine ⟨te, [], id, te4, rfl, ⟨rfl, rfl⟩, h4, h5, ?_⟩
    intro v mm es ge5 m5 es5 r hv _ hex hterm
    rw [hd] at hex
    simp only [execBody, BodyRes.ok.injEq] at hex
    obtain ⟨rfl, rfl, rfl⟩ := hex
    refine ⟨rfl, rfl, ?_⟩
    rcases ht with ht | ht
    · rw [ht] at hterm
      simp only [evalTerm, Next.ret.injEq] at hterm
      rw [hv ht, ← hterm]
    · rw [ht] at hterm
      simp only [evalTerm, eval, setEnv, if_pos, Next.ret.injEq] at hterm
      rw [← hterm]
      rfl
  | acc i left x ident =>
    obtain ⟨hd, ht, _, hxc, hargs, _⟩ := hsp
    obtain ⟨a, ha, rfl, rfl⟩ := hst
    obtain ⟨xv, hxv, hxD⟩ := hx
    have A : AccOk V D mul i.op ident := hK
    obtain ⟨hb1, hb2⟩ := h.before hl i left x ident rfl
    have him : i ∈ B.body := by rw [h.body, hd]; simp
    have hu := h.names.used b B i.id h.hB (.inr (by unfold Block.ids; exact List.mem_append_right _ (List.mem_map_of_mem him)))
    have hxm : x ∈ B.opds := mem_opds_use (.inl ⟨i, him, by rw [hargs]; cases left <;> simp⟩)
    have hxe := he.eval (cG := cG) (vs0 := vs0) (h.pars b B h.hB x hxm) hxv
    have hx1 : te N.x1 = some a := he.ext (N.x1, a) (by simp)
    have hsem : execBody (V.lang cG vs0) (N.rest V.param S b (.acc i left x ident)) te m tr = .ok (setEnv L te i.id (mul a xv)) m tr := by
      cases left with
      | true => exact exec_one (L := V.lang cG vs0) (evals_two hx1 hxe) ((sem_plain (c := cG) (vs := vs0) A.callee _ m).trans (A.sem a xv m ha hxD))
      | false =>
        rw [A.comm a xv ha hxD]
        exact exec_one (L := V.lang cG vs0) (evals_two hxe hx1) ((sem_plain (c := cG) (vs := vs0) A.callee _ m).trans (A.sem xv a m hxD ha))
    obtain ⟨te4, h4, h5⟩ := hdr (cG := cG) (vs0 := vs0) (ws := ws') h (q := b) (te := setEnv L te i.id (mul a xv)) (ext := [(N.x1, mul a xv)]) (comb := mul (mul a xv)) (D := D) (mul := mul)
      ⟨_, A.dom a xv ha hxD, rfl, rfl⟩ (by
        intro e hem
        rw [List.mem_singleton] at hem
        subst hem
        refine ⟨_, List.mem_singleton.2 rfl, rfl, ?_⟩
        simp only [phiVal]
        rw [phi_at_b h.e0b]
        simp [eval, setEnv]) (by
        intro p hp
        have : p = ⟨N.x1, [(N.e0, .cst ident), (b, .inst i.id)]⟩ := by simpa [TailNm.kphis] using hp
        subst this
        refine ⟨mul a xv, ?_⟩
        simp only [phiVal]
        rw [phi_at_b h.e0b]
        simp [eval, setEnv])
      (harg _ (by
        intro o ho
        refine eval_setEnv_ne (L := V.lang cG vs0) (opd_ne_inst ?_ hu.1)
        rintro rfl
        exact hb1 ho))
    refine ⟨_, _, _, te4, hsem, ⟨_, A.dom a xv ha hxD, rfl, rfl⟩, h4, h5, ?_⟩
    intro v mm es ge5 m5 es5 r _ hvD hex hterm
    generalize hw : v.getD V.void = w at hex hvD ⊢
    rw [hd] at hex
    have e1 : eval (V.lang cF ws) (setEnv L ge call.id w) x = some xv := by
      rw [← hxv]; exact eval_setEnv_ne (L := V.lang cF ws) hxc
    have e2 : eval (V.lang cF ws) (setEnv L ge call.id w) (.inst call.id) = some w := by simp [eval, setEnv]
    have hres : ge5 = setEnv L (setEnv L ge call.id w) i.id (mul w xv) ∧ m5 = mm ∧ es5 = es := by
      have hone : execBody (V.lang cF ws) [i] (setEnv L ge call.id w) mm es = .ok (setEnv L (setEnv L ge call.id w) i.id (mul w xv)) mm es := by
        cases left with
        | true => exact exec_one (L := V.lang cF ws) (by rw [hargs]; exact evals_two e2 e1) ((sem_plain (c := cF) (vs := ws) A.callee _ mm).trans (A.sem w xv mm hvD hxD))
        | false =>
          rw [A.comm w xv hvD hxD]
          exact exec_one (L := V.lang cF ws) (by rw [hargs]; exact evals_two e1 e2) ((sem_plain (c := cF) (vs := ws) A.callee _ mm).trans (A.sem xv w mm hxD hvD))
      rw [hone] at hex
      simp only [BodyRes.ok.injEq] at hex
      exact ⟨hex.1.symm, hex.2.1.symm, hex.2.2.symm⟩
    obtain ⟨rfl, rfl, rfl⟩ := hres
    refine ⟨rfl, rfl, ?_⟩
    rw [ht] at hterm
    simp only [evalTerm, eval, setEnv, if_true, Next.ret.injEq] at hterm
    rw [← hterm]
    show mul a (mul w xv) = mul (mul a xv) w
    rw [A.comm w xv hvD hxD, A.assoc a xv w ha hxD hvD]
  | first x =>
    obtain ⟨hd, ht, hxc⟩ := hsp
    obtain ⟨c, t, r0, hc, rfl, rfl⟩ := hst
    obtain ⟨xv, hxv⟩ := hx
    have Z : SelOk V S := hK
    have hxm : x ∈ B.opds := mem_opds_use (.inr (by rw [ht]; simp [Term.args]))
    have hxe := he.eval (cG := cG) (vs0 := vs0) (h.pars b B h.hB x hxm) hxv
    have hx1 : te N.x1 = some r0 := he.ext (N.x1, r0) (by simp)
    have hx2 : te N.x2 = some c := he.ext (N.x2, c) (by simp)
    have hsem : execBody (V.lang cG vs0) (N.rest V.param S b (.first x)) te m tr = .ok (setEnv L te (N.leaf b) (if t then r0 else xv)) m tr := by
      exact exec_one (L := V.lang cG vs0) (evals_three hx2 hx1 hxe) ((sem_plain (c := cG) (vs := vs0) Z.callee _ m).trans (Z.sem c t r0 xv m hc))
    have p2 : phiVal (V.lang cG vs0) (some b) (setEnv L te (N.leaf b) (if t then r0 else xv)) ⟨N.x2, [(N.e0, .cst S.ff), (b, .cst S.tt)]⟩ = some (L.cval S.tt) := by
      simp only [phiVal]
      rw [phi_at_b h.e0b]
      exact congrArg some (cv_none Z.ttP)
    have p1 : phiVal (V.lang cG vs0) (some b) (setEnv L te (N.leaf b) (if t then r0 else xv)) ⟨N.x1, [(N.e0, .cst S.undef), (b, .inst (N.leaf b))]⟩ = some (if t then r0 else xv) := by
      simp only [phiVal]
      rw [phi_at_b h.e0b]
      simp [eval, setEnv]
    obtain ⟨te4, h4, h5⟩ := hdr (cG := cG) (vs0 := vs0) (ws := ws') h (q := b) (te := setEnv L te (N.leaf b) (if t then r0 else xv))
      (ext := [(N.x2, L.cval S.tt), (N.x1, if t then r0 else xv)]) (comb := fun w => if true then (if t then r0 else xv) else w) (D := D) (mul := mul)
      ⟨L.cval S.tt, true, _, Z.tt, rfl, rfl⟩ (by
        intro e hem
        rcases List.mem_cons.1 hem with rfl | hem
        · exact ⟨_, List.mem_cons_self .., rfl, p2⟩
        · rw [List.mem_singleton] at hem
          subst hem
          exact ⟨_, List.mem_cons_of_mem _ (List.mem_singleton.2 rfl), rfl, p1⟩) (by
        intro p hp
        rcases List.mem_cons.1 hp with rfl | hp
        · exact ⟨_, p2⟩
        · rw [List.mem_singleton] at hp
          subst hp
          exact ⟨_, p1⟩)
      (harg _ (by
        intro o ho
        refine eval_setEnv_ne (L := V.lang cG vs0) (opd_ne_inst ?_ (fun j => h.names.leafps b j))
        rintro rfl
        exact (h.names.used b B _ h.hB (.inl (h.opd_mem ho))).2.2.2 b rfl))
    refine ⟨_, _, _, te4, hsem, ⟨L.cval S.tt, true, _, Z.tt, rfl, rfl⟩, h4, h5, ?_⟩
    intro v mm es ge5 m5 es5 r _ _ hex hterm
    rw [hd] at hex
    simp only [execBody, BodyRes.ok.injEq] at hex
    obtain ⟨rfl, rfl, rfl⟩ := hex
    refine ⟨rfl, rfl, ?_⟩
    have e1 : eval (V.lang cF ws) (setEnv L ge call.id (v.getD V.void)) x = some xv := by
      rw [← hxv]; exact eval_setEnv_ne (L := V.lang cF ws) hxc
    rw [ht] at hterm
    simp only [evalTerm, e1, Next.ret.injEq] at hterm
    rw [← hterm]
    rfl

/-- the new code in front of a `return` -/
theorem TailOk.leaf (h : TailOk V N S accOp F f b k as K B call) (hK : KindOk V S D mul K) {ge te : Env L} {m : L.M} {tr : List L.E} {ext : List (Nat × L.V)} {comb : L.V → L.V}
    (hst : TailSt N D mul ext comb K) (he : TailEnv V N as ws ext ge te) {y : Nat} {o : Opd L.C} (ho : TailPar V.param as o) {v : L.V} (hv : eval (V.lang cF ws) ge o = some v) (hD : D v) :
    ∃ te', execBody (V.lang cG vs0) (N.leaves S y (N.opd V.param o) K) te m tr = .ok te' m tr ∧
      evalTerm (V.lang cG vs0) te' (.ret (some (N.leafOpd y (N.opd V.param o) K))) = .ret (some (comb v)) := by
  have hve := he.eval (cG := cG) (vs0 := vs0) ho hv
  cases K with
  | plain =>
    obtain ⟨rfl, rfl⟩ := hst
    refine ⟨te, rfl, ?_⟩
    simp only [TailNm.leafOpd, evalTerm, hve, id]
  | acc i left x ident =>
    obtain ⟨a, ha, rfl, rfl⟩ := hst
    have A : AccOk V D mul i.op ident := hK
    have hx1 : te N.x1 = some a := he.ext (N.x1, a) (by simp)
    refine ⟨setEnv L te (N.leaf y) (mul a v), ?_, by simp [TailNm.leafOpd, evalTerm, eval, setEnv]⟩
    cases left with
    | true => exact exec_one (L := V.lang cG vs0) (evals_two hx1 hve) ((sem_plain (c := cG) (vs := vs0) A.callee _ m).trans (A.sem a v m ha hD))
    | false =>
      rw [A.comm a v ha hD]
      exact exec_one (L := V.lang cG vs0) (evals_two hve hx1) ((sem_plain (c := cG) (vs := vs0) A.callee _ m).trans (A.sem v a m hD ha))
  | first x =>
    obtain ⟨c, t, r0, hc, rfl, rfl⟩ := hst
    have Z : SelOk V S := hK
    have hx1 : te N.x1 = some r0 := he.ext (N.x1, r0) (by simp)
    have hx2 : te N.x2 = some c := he.ext (N.x2, c) (by simp)
    refine ⟨setEnv L te (N.leaf y) (if t then r0 else v), ?_, by simp [TailNm.leafOpd, evalTerm, eval, setEnv]⟩
    exact exec_one (L := V.lang cG vs0) (evals_three hx2 hx1 hve) ((sem_plain (c := cG) (vs := vs0) Z.callee _ m).trans (Z.sem c t r0 v m hc))

end
end Cmmc.SSA
