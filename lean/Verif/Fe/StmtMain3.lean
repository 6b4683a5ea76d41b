import Verif.Fe.StmtMain2
/-!
# Statements: `for`, and all statements
-/
namespace Cmmc.Fe
open Cmmc

section
variable {X : Ext} {K : Cfg X} {rt : Option IT}

/-- the condition of a `for` loop in the specification -/
def forCond (sigs : Sigs) (call : Calls X) (ρ : SEnv) (k : Option Expr) : SSt X → Out X Bool :=
  match k with | none => fun s => .ok true s | some c => evalC sigs call ρ c

def forIter (sigs : Sigs) (call : Calls X) (ρ : SEnv) (k : Option Expr) : SSt X → Out X QV :=
  match k with | none => fun s => .ok .void s | some c => evalE sigs call ρ c

theorem emitFC_ok {Γ : List (List SE)} {ob : Opd → Obj} {k : Option Expr} {a b : Nat} {c c1 : Ctx} (w : Wf c) (hs : Stat K.consts Γ c)
    (h : emitFC K.sigs K.P k a b c = some c1) (he : Ext' c1 K.Fc) (pred : Option Nat) (env : Env) (m : Mem X) (S : SSt X)
    (hd : Dyn K Γ ob S env m) :
    K.Od Γ ob (K.pt c pred env m S.tr) 1 (fun t => if t then a else b) (forCond K.sigs K.sc (den Γ ob) k S) := by
  cases k with
  | none =>
    simp only [emitFC, Option.some.injEq] at h
    rw [← h] at he
    exact ⟨1, some c.cur, env, m, le_rfl, goto_term he rfl pred m S.tr, hd⟩
  | some k =>
    obtain ⟨⟨o, c2⟩, h1, h⟩ := bind_some' h
    simp only [Option.some.injEq] at h
    rw [← h] at he
    exact Meets.od (emitC_ok w hs h1 ((em_term _ _).toExt'.trans he) pred env m S hd) he

theorem emitFI_ok {Γ : List (List SE)} {ob : Opd → Obj} {k : Option Expr} {a : Nat} {c c1 : Ctx} (w : Wf c) (hs : Stat K.consts Γ c)
    (h : emitFI K.sigs K.P k c = some c1) (he : Ext' (c1.term (.br a)) K.Fc) (pred : Option Nat) (env : Env) (m : Mem X) (S : SSt X)
    (hd : Dyn K Γ ob S env m) :
    K.Od Γ ob (K.pt c pred env m S.tr) 1 (fun _ => a) (forIter K.sigs K.sc (den Γ ob) k S) := by
  cases k with
  | none =>
    simp only [emitFI, Option.some.injEq] at h
    rw [← h] at he
    exact ⟨1, some c.cur, env, m, le_rfl, goto_term he rfl pred m S.tr, hd⟩
  | some k =>
    obtain ⟨⟨o, c2⟩, h1, h⟩ := bind_some' h
    simp only [Option.some.injEq] at h
    rw [← h] at he
    exact Meets.odBr (emitE_ok k _ _ _ w hs h1 ((em_term _ _).toExt'.trans he) pred env m S hd) he

theorem exec_for (rt : Option IT) (n : Nat) (ρ : SEnv) (i : Stmt) (k it : Option Expr) (a : Stmt) (S : SSt X) :
    exec K.sigs K.sc rt n ρ (.for i k it a) S = (exec K.sigs K.sc rt n ([] :: ρ) i S).bind fun f s =>
    match f with
    | .normal ρ' => (loop ρ' (forCond K.sigs K.sc ρ' k) (exec K.sigs K.sc rt n ρ' a) (forIter K.sigs K.sc ρ' it) n s).bind fun f s => .ok (f.leave ρ) s
    | f => .ok f s := by
  rw [exec]
  rfl

theorem sok_for {i : Stmt} {k it : Option Expr} {a : Stmt} (ihi : SOk K rt i) (iha : SOk K rt a) : SOk K rt (.for i k it a) := by
  refine sok_of (fun c c' Γ hwf w hs h => ?_)
  simp only [Stmt.wf, Bool.and_eq_true] at hwf
  obtain ⟨⟨wfi, wfa⟩, da⟩ := hwf
  obtain ⟨c0, c1, c2, c3, h0, h1, h2, h3, h4⟩ := emitS_for h
  have p0 := sm_pushScope c
  have wP := p0.wf w
  have ei := sm_emitS i _ _ wP h0
  have w0 := ei.wf wP
  have hc0 := w0.cur
  obtain ⟨new, s0, _, f0, simi⟩ := ihi c.pushScope c0 ([] :: Γ) wfi wP (stat_push hs) h0
  have hflat : ([] :: Γ : List (List SE)).flatten = Γ.flatten := by simp
  rw [hflat] at f0
  have htop : addTop new ([] :: Γ) = new :: Γ := by simp [addTop]
  rw [htop] at s0 simi
  have e1 := ((((em_newBlock c0).trans (em_newBlock _)).trans (em_newBlock _)).trans (em_newBlock _)).trans
    (em_term c0.newBlock.2.newBlock.2.newBlock.2.newBlock.2 (.br c0.nb))
  have eH := em_setCur e1 (b := c0.nb) (Or.inr le_rfl) (by show c0.nb < c0.nb + 1 + 1 + 1 + 1; omega)
  have wH := eH.wf w0
  have sH := s0.same eH.same
  have ek := em_emitFC wH h1
  have n1 : c0.nb + 1 + 1 + 1 + 1 ≤ c1.nb := ek.nb
  have mB : Mono c0 ({ c1.setCur (c0.nb + 1) with loops := (c0.nb + 2, c0.nb + 3) :: c1.loops } : Ctx) :=
    mono_loops (mono_setCur (eH.mono.trans ek.mono) (b := c0.nb + 1) (Or.inr (by omega)) (by omega)) _
  have wB := mB.wf w0
  have sB : Stat K.consts (new :: Γ) ({ c1.setCur (c0.nb + 1) with loops := (c0.nb + 2, c0.nb + 3) :: c1.loops } : Ctx) :=
    (sH.same ek.same).congr rfl rfl rfl rfl
  have ea := sm_emitS a _ _ wB h2
  have n2 : c1.nb ≤ c2.nb := ea.nb
  obtain ⟨sa, sima⟩ := iha.noDecl da wfa wB sB h2
  have e5 := ea.toMono.trans (em_term c2 (.br (c0.nb + 2))).mono
  have mI := mono_setCur (mono_loops (mB.trans e5) c2.loops.tail) (b := c0.nb + 2) (Or.inr (by omega)) (by show c0.nb + 2 < c2.nb; omega)
  have wI := mI.wf w0
  have sI : Stat K.consts (new :: Γ) (({ c2.term (.br (c0.nb + 2)) with loops := c2.loops.tail } : Ctx).setCur (c0.nb + 2)) := sa.congr rfl rfl rfl rfl
  have et := em_emitFI wI h3
  have n3 : c2.nb ≤ c3.nb := et.nb
  have ep := sm_popScope h4
  have sE : Stat K.consts (new :: Γ) ((c3.term (.br c0.nb)).setCur (c0.nb + 3)) := (sI.same et.same).congr rfl rfl rfl rfl
  refine ⟨stat_pop sE f0 h4, fun he ob pred env m S n hd => ?_⟩
  have x3 := ext_setCur (ep.toExt'.trans he)
  have xi3 := (em_term _ _).toExt'.trans x3
  have x2 := ext_loops (ext_setCur (et.toExt'.trans xi3))
  have xa := (em_term _ _).toExt'.trans x2
  have x1 : Ext' c1 K.Fc := ext_setCur (ext_loops (c := c1.setCur (c0.nb + 1)) (ea.toExt'.trans xa))
  have xJ := ext_setCur (ek.toExt'.trans x1)
  have x0 := e1.toExt'.trans xJ
  have nF : c3.nb ≤ K.Fc.nb := xi3.nb
  have hJ : ∀ b, c0.nb ≤ b → ((c0.newBlock.2.newBlock.2.newBlock.2.newBlock.2.term (.br c0.nb)).setCur c0.nb).code b = [] := fun b hb =>
    (push_fix c0.newBlock.2.newBlock.2.newBlock.2.newBlock.2 (.term (.br c0.nb)) (b := b) (by show b ≠ c0.cur; omega)).trans (w0.empty _ hb)
  have hK : ∀ b, c0.nb + 1 ≤ b → b ≤ c0.nb + 3 → c1.code b = [] := fun b hb hb' =>
    (ek.fix b (by show b < c0.nb + 1 + 1 + 1 + 1; omega) (by show b ≠ c0.nb; omega)).trans (hJ b (by omega))
  have hI5 : ∀ b, c0.nb + 2 ≤ b → b ≤ c0.nb + 3 → (c2.term (.br (c0.nb + 2))).code b = [] := fun b hb hb' =>
    (e5.fix b (by show b < c1.nb; omega) (by show b ≠ c0.nb + 1; omega)).trans (hK b (by omega) hb')
  have hnew : ((c3.term (.br c0.nb)).setCur (c0.nb + 3)).code (c0.nb + 3) = [] :=
    ((et.trans (em_term c3 (.br c0.nb))).fix (c0.nb + 3) (by show c0.nb + 3 < c2.nb; omega) (by show c0.nb + 3 ≠ c0.nb + 2; omega)).trans
      (hI5 _ (by omega) (by omega))
  have hd' : Dyn K ([] :: Γ) ob S env m := hd.sub (by simp) (fun _ _ => rfl)
  have sim' := SMeets.sub (Γ := Γ) (ob := ob) (simi x0 ob pred env m S n hd') (by simp) (fun _ _ => rfl)
  rw [exec_for]
  refine SMeets.bind sim' (fun g S hg => ?_) (fun S1 p1 env1 m1 ob1 hd1 ho => ?_)
  · cases g with
    | normal ρ => exact absurd rfl (hg ρ)
    | _ => rfl
  have hC : ∀ pred env m S, Dyn K (new :: Γ) ob1 S env m →
      K.Od (new :: Γ) ob1 (K.bdry c0.nb pred env m S.tr) 1 (fun t => if t then c0.nb + 1 else c0.nb + 3)
        (forCond K.sigs K.sc (den (new :: Γ) ob1) k S) := by
    intro pred env m S hd
    rw [show K.bdry c0.nb pred env m S.tr = K.pt _ pred env m S.tr from
      bdry_pt (c := (c0.newBlock.2.newBlock.2.newBlock.2.newBlock.2.term (.br c0.nb)).setCur c0.nb) (show c0.nb ≠ 0 by omega)
        (show c0.nb < K.Fc.nb by omega) (hJ _ le_rfl) _ _ _ _]
    exact emitFC_ok wH sH h1 x1 pred env m S hd
  have hB : ∀ pred env m S, Dyn K (new :: Γ) ob1 S env m →
      K.Bd rt (new :: Γ) ob1 (K.bdry (c0.nb + 1) pred env m S.tr) n (bodyDst (c0.nb + 2) (c0.nb + 3))
        (exec K.sigs K.sc rt n (den (new :: Γ) ob1) a S) := by
    intro pred env m S hd
    have h5 := sima xa ob1 pred env m S n hd
    rw [show K.bdry (c0.nb + 1) pred env m S.tr = K.pt _ pred env m S.tr from
      bdry_pt (c := ({ c1.setCur (c0.nb + 1) with loops := (c0.nb + 2, c0.nb + 3) :: c1.loops } : Ctx))
        (Nat.succ_ne_zero _) (show c0.nb + 1 < K.Fc.nb by omega) (hK (c0.nb + 1) (by omega) (by omega)) _ _ _ _]
    exact SMeets.body h5 x2
  have hI : ∀ pred env m S, Dyn K (new :: Γ) ob1 S env m →
      K.Od (new :: Γ) ob1 (K.bdry (c0.nb + 2) pred env m S.tr) 0 (fun _ => c0.nb) (forIter K.sigs K.sc (den (new :: Γ) ob1) it S) := by
    intro pred env m S hd
    rw [show K.bdry (c0.nb + 2) pred env m S.tr = K.pt _ pred env m S.tr from
      bdry_pt (c := ({ c2.term (.br (c0.nb + 2)) with loops := c2.loops.tail } : Ctx).setCur (c0.nb + 2))
        (Nat.succ_ne_zero _) (show c0.nb + 2 < K.Fc.nb by omega) (hI5 (c0.nb + 2) (by omega) (by omega)) _ _ _ _]
    have h6 := emitFI_ok (a := c0.nb) wI sI h3 x3 pred env m S hd
    rcases hr : forIter K.sigs K.sc (den (new :: Γ) ob1) it S with ⟨q, S'⟩ | _ | ⟨hh, tr⟩
    · rw [hr] at h6
      obtain ⟨k', p', e', m', _, h7⟩ := h6
      exact ⟨k', p', e', m', Nat.zero_le _, h7⟩
    · trivial
    · rw [hr] at h6; exact h6
  have hloop := loop_ok (rt := rt) (ρ := den (new :: Γ) ob1) hC hB hI n le_rfl (some c0.cur) env1 m1 S1 hd1
  have hj := goto_term (c := c0.newBlock.2.newBlock.2.newBlock.2.newBlock.2) (t := .br c0.nb) (env := env1) xJ rfl p1 m1 S1.tr
  have hpt : ∀ pred env m tr, K.pt c' pred env m tr = K.pt ((c3.term (.br c0.nb)).setCur (c0.nb + 3)) pred env m tr := by
    intro pred env m tr
    obtain ⟨sc, scs, _, rfl⟩ := popScope_eq h4
    rfl
  have hS := Bd.smeets (c' := c') (lb := c.loops) (k := 1) hj (by omega) hloop rfl
    (fun pred env m tr => (bdry_pt (c := (c3.term (.br c0.nb)).setCur (c0.nb + 3)) (Nat.succ_ne_zero _)
      (show c0.nb + 3 < K.Fc.nb by omega) hnew _ _ _ _).trans (hpt _ _ _ _).symm)
  have hS' := SMeets.sub (Γ := Γ) (ob := ob) hS (fun e he => by simp only [List.flatten_cons, List.mem_append]; exact Or.inr he) ho
  refine SMeets.leave hS' (fun S2 p2 env2 m2 ob2 hd2 ho2 => ?_)
  exact SMeets.done (Leads.refl _) (hd2.sub (fun e he => by simp only [List.flatten_cons, List.mem_append]; exact Or.inr he) ho2) (fun _ _ => rfl)

/-- every statement -/
theorem emitS_ok : ∀ s : Stmt, SOk K rt s
  | .skip => sok_skip
  | .seq a b => sok_seq (emitS_ok a) (emitS_ok b)
  | .expr e => sok_expr e
  | .decl _ (.int _) _ _ none => sok_declN
  | .decl _ (.int _) _ _ (some _) => sok_declI
  | .decl _ (.arr _ _) _ _ _ => sok_declA
  | .scope a => sok_scope (emitS_ok a)
  | .ifThen _ a => sok_ifThen (emitS_ok a)
  | .ifElse _ a b => sok_ifElse (emitS_ok a) (emitS_ok b)
  | .while _ a => sok_while (emitS_ok a)
  | .doWhile a _ => sok_doWhile (emitS_ok a)
  | .for i _ _ a => sok_for (emitS_ok i) (emitS_ok a)
  | .brk => sok_brk
  | .cont => sok_cont
  | .ret none => sok_ret0
  | .ret (some e) => sok_ret1 e

end
end Cmmc.Fe
