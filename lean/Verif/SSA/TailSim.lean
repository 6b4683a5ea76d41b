import Verif.SSA.Tail
/-!
# TailCallEliminate: the loop computes what the recursion computes
-/
namespace Cmmc.SSA

/-! ## steps -/
section
variable {L : Lang} {F : L.F} {T : L.B} {pred : Option Nat} {q : Nat} {env e1 : Env L} {m m2 : L.M} {tr es : List L.E}

theorem step_halts (hT : F.blk q = some T) (h1 : enterPhis L pred env T.phis env = some e1) {h : L.H} (h2 : execBody L T.body e1 m tr = .halt es h) :
    step L F ⟨pred, q, env, m, tr⟩ = .inr (.halt h es) := by
  simp only [step, hT, stepBlk, h1, h2]

theorem step_rets (hT : F.blk q = some T) (h1 : enterPhis L pred env T.phis env = some e1) {e2 : Env L} (h2 : execBody L T.body e1 m tr = .ok e2 m2 es) {v : Option L.V}
    (h3 : evalTerm L e2 T.term = .ret v) : step L F ⟨pred, q, env, m, tr⟩ = .inr (.ret v m2 es) := by
  simp only [step, hT, stepBlk, h1, h2, h3]

theorem step_goes (hT : F.blk q = some T) (h1 : enterPhis L pred env T.phis env = some e1) {e2 : Env L} (h2 : execBody L T.body e1 m tr = .ok e2 m2 es) {c : Nat}
    (h3 : evalTerm L e2 T.term = .goto c) : step L F ⟨pred, q, env, m, tr⟩ = .inl ⟨some q, c, e2, m2, es⟩ := by
  simp only [step, hT, stepBlk, h1, h2, h3]

theorem run_inr {n : Nat} {s : St L} {r : Beh L} (h : step L F s = .inr r) : run L F (n + 1) s = .inr r := by simp only [run, h]
theorem run_inl {n : Nat} {s s' : St L} {r : St L ⊕ Beh L} (h : step L F s = .inl s') (h' : run L F n s' = r) : run L F (n + 1) s = r := by simp only [run, h, h']

end

section
variable {Op C : Type} {F : Func Op C} {N : TailNm} {param : C → Option Nat} {S : TailSel Op C} {as : List C} {b k : Nat} {args : List (Opd C)} {K : TailKind Op C} {B : Block Op C}

/-- what `tailKind` finds behind the call -/
theorem tailKind_spec [DecidableEq C] {accOp : Op → Option C} {cid : Nat} (h : tailKind accOp F B k cid = some K) :
    match K with
    | .plain => B.body.drop (k + 1) = [] ∧ (B.term = .ret none ∨ B.term = .ret (some (.inst cid)))
    | .acc i left x ident => B.body.drop (k + 1) = [i] ∧ B.term = .ret (some (.inst i.id)) ∧ accOp i.op = some ident ∧ x ≠ .inst cid ∧
        i.args = (if left then [.inst cid, x] else [x, .inst cid]) ∧ F.useCount i.id = 1
    | .first x => B.body.drop (k + 1) = [] ∧ B.term = .ret (some x) ∧ x ≠ .inst cid := by
  unfold tailKind at h
  split at h
  · rename_i h1 h2; cases h; exact ⟨h1, .inl h2⟩
  · rename_i x h1 h2
    split at h
    · rename_i h3; cases h; subst h3; exact ⟨h1, .inr h2⟩
    · rename_i h3; cases h; exact ⟨h1, h2, h3⟩
  · rename_i i r h1 h2
    split at h
    · rename_i ident a c h3 h4
      split at h
      · rename_i h5
        split at h
        · rename_i h6; cases h; exact ⟨h1, by rw [h2, h5.2], h3, h6.2, by rw [h4, h6.1]; rfl, h5.1⟩
        · split at h
          · rename_i h6; cases h; exact ⟨h1, by rw [h2, h5.2], h3, h6.1, by rw [h4, h6.2]; rfl, h5.1⟩
          · cases h
      · cases h
    · cases h
  · cases h

/-- the phis in front of the arguments -/
def TailNm.kphis (N : TailNm) (S : TailSel Op C) (b : Nat) : TailKind Op C → List (Phi C)
  | .plain => []
  | .acc i _ _ ident => [⟨N.x1, [(N.e0, .cst ident), (b, .inst i.id)]⟩]
  | .first _ => [⟨N.x2, [(N.e0, .cst S.ff), (b, .cst S.tt)]⟩, ⟨N.x1, [(N.e0, .cst S.undef), (b, .inst (N.leaf b))]⟩]

theorem TailNm.mem_phis {p : Phi C} (h : p ∈ N.phis param S as b args K) :
    p ∈ N.kphis S b K ∨ ∃ j c o, as[j]? = some c ∧ args[j]? = some o ∧ p = ⟨N.ps j, [(N.e0, .cst c), (b, N.opd param o)]⟩ := by
  unfold TailNm.phis at h
  rcases List.mem_append.1 h with h | h
  · left; exact h
  · right
    rw [List.mem_reverse, List.mem_map] at h
    obtain ⟨⟨⟨c, o⟩, j⟩, he, rfl⟩ := h
    have := List.mk_mem_zipIdx_iff_getElem?.1 he
    rw [List.getElem?_zip_eq_some] at this
    exact ⟨j, c, o, this.1, this.2, rfl⟩

theorem TailNm.arg_mem {j : Nat} {c : C} {o : Opd C} (h1 : as[j]? = some c) (h2 : args[j]? = some o) :
    (⟨N.ps j, [(N.e0, .cst c), (b, N.opd param o)]⟩ : Phi C) ∈ N.phis param S as b args K := by
  unfold TailNm.phis
  refine List.mem_append_right _ ?_
  rw [List.mem_reverse, List.mem_map]
  exact ⟨((c, o), j), List.mk_mem_zipIdx_iff_getElem?.2 (List.getElem?_zip_eq_some.2 ⟨h1, h2⟩), rfl⟩

theorem TailNm.kphi_mem {p : Phi C} (h : p ∈ N.kphis S b K) : p ∈ N.phis param S as b args K := by
  unfold TailNm.phis
  exact List.mem_append_left _ h

/-- the new names do not collide -/
structure TailNmOk (N : TailNm) (F : Func Op C) : Prop where
  e0 : N.e0 ∉ F.order
  psInj : ∀ i j, N.ps i = N.ps j → i = j
  leafInj : ∀ i j, N.leaf i = N.leaf j → i = j
  psx : ∀ j, N.ps j ≠ N.x1 ∧ N.ps j ≠ N.x2
  xx : N.x1 ≠ N.x2
  leafps : ∀ y j, N.leaf y ≠ N.ps j
  leafx : ∀ y, N.leaf y ≠ N.x1 ∧ N.leaf y ≠ N.x2
  used : ∀ q T x, F.blk q = some T → (Opd.inst x ∈ T.opds ∨ x ∈ T.ids) → (∀ j, x ≠ N.ps j) ∧ x ≠ N.x1 ∧ x ≠ N.x2 ∧ ∀ y, x ≠ N.leaf y

theorem TailNmOk.phis_nodup (h : TailNmOk N F) : ((N.phis param S as b args K).map Phi.id).Nodup := by
  have hz : (((as.zip args).zipIdx.map (fun e => (⟨N.ps e.2, [(N.e0, .cst e.1.1), (b, N.opd param e.1.2)]⟩ : Phi C))).map Phi.id).Nodup := by
    rw [List.map_map]
    have e : (Phi.id ∘ fun e : (C × Opd C) × Nat => (⟨N.ps e.2, [(N.e0, .cst e.1.1), (b, N.opd param e.1.2)]⟩ : Phi C)) = N.ps ∘ Prod.snd := rfl
    rw [e, ← List.map_map]
    refine List.Nodup.map (fun i j => h.psInj i j) ?_
    rw [List.zipIdx_map_snd]
    exact List.nodup_range'
  have hd : ∀ x ∈ (N.kphis S b K).map Phi.id, x = N.x1 ∨ x = N.x2 := by
    intro x hx
    cases K <;> simp [TailNm.kphis] at hx
    · exact .inl hx
    · exact hx.symm
  have hk : ((N.kphis S b K).map Phi.id).Nodup := by
    cases K <;> simp [TailNm.kphis]
    exact fun e => h.xx e.symm
  have : N.phis param S as b args K = N.kphis S b K ++ ((as.zip args).zipIdx.map (fun e => (⟨N.ps e.2, [(N.e0, .cst e.1.1), (b, N.opd param e.1.2)]⟩ : Phi C))).reverse := rfl
  rw [this, List.map_append, List.map_reverse]
  refine List.nodup_append.2 ⟨hk, List.nodup_reverse.2 hz, ?_⟩
  intro x hx y hy
  rw [List.mem_reverse, List.map_map, List.mem_map] at hy
  obtain ⟨e, _, rfl⟩ := hy
  rintro rfl
  rcases hd _ hx with h1 | h1
  · exact (h.psx _).1 h1
  · exact (h.psx _).2 h1

end

/-! ## the languages -/
section
variable {L : Lang}

/-- an accumulator instruction on the values `D`: associative and commutative, with identity -/
structure AccOk (V : Conv L) (D : L.V → Prop) (mul : L.V → L.V → L.V) (op : L.Op) (ident : L.C) : Prop where
  callee : V.callee op = none
  sem : ∀ a c m, D a → D c → L.sem op [a, c] m = .ok (mul a c) m []
  dom : ∀ a c, D a → D c → D (mul a c)
  assoc : ∀ a c e, D a → D c → D e → mul (mul a c) e = mul a (mul c e)
  comm : ∀ a c, D a → D c → mul a c = mul c a
  param : V.param ident = none
  idD : D (L.cval ident)
  ident : ∀ a, D a → mul (L.cval ident) a = a

/-- `select` and the constants true and false -/
structure SelOk (V : Conv L) (S : TailSel L.Op L.C) : Prop where
  callee : V.callee S.op = none
  sem : ∀ c t a e m, L.truth c = some t → L.sem S.op [c, a, e] m = .ok (if t then a else e) m []
  ttP : V.param S.tt = none
  ffP : V.param S.ff = none
  tt : L.truth (L.cval S.tt) = some true
  ff : L.truth (L.cval S.ff) = some false

/-- what the loop carries besides the arguments, and what it will do to the value of the innermost invocation -/
def TailSt (N : TailNm) (D : L.V → Prop) (mul : L.V → L.V → L.V) (ext : List (Nat × L.V)) (comb : L.V → L.V) : TailKind L.Op L.C → Prop
  | .plain => ext = [] ∧ comb = id
  | .acc _ _ _ _ => ∃ a, D a ∧ ext = [(N.x1, a)] ∧ comb = mul a
  | .first _ => ∃ c t r, L.truth c = some t ∧ ext = [(N.x2, c), (N.x1, r)] ∧ comb = fun w => if t then r else w

theorem TailSt.names {N : TailNm} {D : L.V → Prop} {mul : L.V → L.V → L.V} {ext : List (Nat × L.V)} {comb : L.V → L.V} {K : TailKind L.Op L.C} (h : TailSt N D mul ext comb K) :
    ∀ e ∈ ext, e.1 = N.x1 ∨ e.1 = N.x2 := by
  cases K with
  | plain => rw [h.1]; simp
  | acc i l x id => obtain ⟨a, _, rfl, _⟩ := h; simp
  | first x => obtain ⟨c, t, r, _, rfl, _⟩ := h; simp

/-- everything the rewrite relies on; `as` are the parameters of the function, `call` the call -/
structure TailOk (V : Conv L) (N : TailNm) (S : TailSel L.Op L.C) (accOp : L.Op → Option L.C) (F : L.F) (f b k : Nat) (as : List L.C) (K : TailKind L.Op L.C) (B : L.B)
    (call : Inst L.Op L.C) : Prop where
  hB : F.blk b = some B
  hk : B.body[k]? = some call
  callee : V.callee call.op = some f
  kind : tailKind accOp F B k call.id = some K
  len : call.args.length = as.length
  asPar : ∀ j c, as[j]? = some c → V.param c = some j
  pars : ∀ q T, F.blk q = some T → ∀ o ∈ T.opds, TailPar V.param as o
  noEntry : ∀ q, ¬ Edge F q F.entry
  entryPhis : ∀ T, F.blk F.entry = some T → T.phis = []
  bne : b ≠ F.entry
  names : TailNmOk N F
  rets : (∀ q T v, F.blk q = some T → T.term = .ret v → v.isSome = true) ∨ (∀ q T v, F.blk q = some T → T.term = .ret v → v = none)
  before : Live F b → ∀ i l x c, K = .acc i l x c → Opd.inst i.id ∉ call.args ∧ x ≠ .inst i.id
  listed : F.Listed

end

section
variable {L : Lang} {V : Conv L} {N : TailNm} {S : TailSel L.Op L.C} {accOp : L.Op → Option L.C} {F : L.F} {f b k : Nat} {as : List L.C} {K : TailKind L.Op L.C} {B : L.B}
  {call : Inst L.Op L.C} {D : L.V → Prop} {mul : L.V → L.V → L.V}

theorem TailOk.body (h : TailOk V N S accOp F f b k as K B call) : B.body = B.body.take k ++ call :: B.body.drop (k + 1) := by
  have hk := h.hk
  obtain ⟨hlt, he⟩ := List.getElem?_eq_some_iff.1 hk
  rw [← he, List.getElem_cons_drop, List.take_append_drop]

theorem TailOk.call_mem (h : TailOk V N S accOp F f b k as K B call) : call ∈ B.body := List.mem_of_getElem? h.hk

/-- entering the loop header with arguments `ws` -/
theorem hdr {cG : CallSem L} {vs0 ws : List L.V} (h : TailOk V N S accOp F f b k as K B call) {q : Nat} {te : Env L} {ext : List (Nat × L.V)} {comb : L.V → L.V} (hst : TailSt N D mul ext comb K)
    (hk : ∀ e ∈ ext, ∃ p ∈ N.kphis S b K, p.id = e.1 ∧ phiVal (V.lang cG vs0) (some q) te p = some e.2)
    (hk2 : ∀ p ∈ N.kphis S b K, ∃ v, phiVal (V.lang cG vs0) (some q) te p = some v)
    (ha : ∀ j c o, as[j]? = some c → call.args[j]? = some o → phiVal (V.lang cG vs0) (some q) te ⟨N.ps j, [(N.e0, .cst c), (b, N.opd V.param o)]⟩ = some (V.cv ws c)) :
    ∃ te1, enterPhis (V.lang cG vs0) (some q) te (N.phis V.param S as b call.args K) te = some te1 ∧ TailEnv V N as ws ext (fun _ => none) te1 := by
  obtain ⟨r, h1, h2, _⟩ := enterPhis_vals (L := V.lang cG vs0) (q := q) (old := te) (ps := N.phis V.param S as b call.args K) (e := te) (by
    intro p hp
    rcases TailNm.mem_phis hp with hp | ⟨j, c, o, hj, ho, rfl⟩
    · exact hk2 p hp
    · exact ⟨_, ha j c o hj ho⟩) h.names.phis_nodup
  refine ⟨r, h1, ⟨fun x v hx => (by cases hx), ?_, ?_⟩⟩
  · intro j c hj
    have hlt : j < call.args.length := by
      rw [h.len]
      exact (List.getElem?_eq_some_iff.1 hj).1
    have ho := List.getElem?_eq_getElem hlt
    rw [h2 _ (TailNm.arg_mem hj ho)]
    exact ha j c _ hj ho
  · intro e he
    obtain ⟨p, hp, hid, hv⟩ := hk e he
    rw [← hid, h2 p (TailNm.kphi_mem hp)]
    exact hv

/-- `op` applied in the new program, where it is not a call -/
theorem sem_plain {c : CallSem L} {vs : List L.V} {op : L.Op} (h : V.callee op = none) (xs : List L.V) (m : L.M) : (V.lang c vs).sem op xs m = L.sem op xs m := by
  show V.sem c op xs m = _
  unfold Conv.sem
  rw [h]

theorem cv_none {ws : List L.V} {c : L.C} (h : V.param c = none) : V.cv ws c = L.cval c := by
  unfold Conv.cv
  rw [h]

end
end Cmmc.SSA
