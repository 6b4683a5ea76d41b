import Verif.SSA.TailLoop
/-!
# TailCallEliminate: the program afterwards
-/
namespace Cmmc.SSA
section
variable {L : Lang} {V : Conv L} {N : TailNm} {S : TailSel L.Op L.C} {accOp : L.Op → Option L.C} {F : L.F} {f b k : Nat} {as : List L.C} {K : TailKind L.Op L.C} {B : L.B}
  {call : Inst L.Op L.C} {D : L.V → Prop} {mul : L.V → L.V → L.V} {P : Nat → Option L.F}

theorem Conv.call_mono (P : Nat → Option L.F) {e d : Nat} (h : e ≤ d) : ∀ g vs m, V.call P e g vs m ≠ .ub → V.call P d g vs m = V.call P e g vs m := by
  induction h with
  | refl => intro g vs m _; rfl
  | step _ ih =>
    intro g vs m hu
    have h1 := ih g vs m hu
    rw [Conv.call_le (V := V) P _ g vs m (by rw [h1]; exact hu), h1]

theorem Conv.enter_enter (V : Conv L) (m : L.M) : V.enter (V.enter m) = V.enter m := by
  have h := V.enter_leave m (V.enter m) (V.enter_I m)
  rw [V.leave_enter] at h
  exact h.symm

/-- what the loop carries in the first round -/
theorem TailOk.init (h : TailOk V N S accOp F f b k as K B call) (hK : KindOk V S D mul K) (cG : CallSem L) (vs : List L.V) :
    ∃ ext comb te1, TailSt N D mul ext comb K ∧ enterPhis (V.lang cG vs) (some N.e0) (fun _ => none) (N.phis V.param S as b call.args K) (fun _ => none) = some te1 ∧
      TailEnv V N as vs ext (fun _ => none) te1 ∧ ∀ w, D w → comb w = w := by
  have ha : ∀ j c o, as[j]? = some c → call.args[j]? = some o → phiVal (V.lang cG vs) (some N.e0) (fun _ => none) ⟨N.ps j, [(N.e0, .cst c), (b, N.opd V.param o)]⟩ = some (V.cv vs c) := by
    intro j c o _ _
    simp only [phiVal]
    rw [phi_at_e]
    rfl
  cases K with
  | plain =>
    obtain ⟨te1, h1, h2⟩ := hdr (cG := cG) (vs0 := vs) (ws := vs) h (q := N.e0) (te := fun _ => none) (ext := []) (comb := id) (D := D) (mul := mul) ⟨rfl, rfl⟩ (by simp) (by simp [TailNm.kphis]) ha
    exact ⟨[], id, te1, ⟨rfl, rfl⟩, h1, h2, fun _ _ => rfl⟩
  | acc i l x c =>
    have A : AccOk V D mul i.op c := hK
    have p1 : phiVal (V.lang cG vs) (some N.e0) (fun _ => none) ⟨N.x1, [(N.e0, .cst c), (b, .inst i.id)]⟩ = some (L.cval c) := by
      simp only [phiVal]
      rw [phi_at_e]
      exact congrArg some (cv_none A.param)
    obtain ⟨te1, h1, h2⟩ := hdr (cG := cG) (vs0 := vs) (ws := vs) h (q := N.e0) (te := fun _ => none) (ext := [(N.x1, L.cval c)]) (comb := mul (L.cval c)) (D := D) (mul := mul) ⟨_, A.idD, rfl, rfl⟩ (by
      intro e he
      rw [List.mem_singleton] at he
      subst he
      exact ⟨_, List.mem_singleton.2 rfl, rfl, p1⟩) (by
      intro p hp
      have : p = ⟨N.x1, [(N.e0, .cst c), (b, .inst i.id)]⟩ := by simpa [TailNm.kphis] using hp
      subst this
      exact ⟨_, p1⟩) ha
    exact ⟨_, _, te1, ⟨_, A.idD, rfl, rfl⟩, h1, h2, A.ident⟩
  | first x =>
    have Z : SelOk V S := hK
    have p2 : phiVal (V.lang cG vs) (some N.e0) (fun _ => none) ⟨N.x2, [(N.e0, .cst S.ff), (b, .cst S.tt)]⟩ = some (L.cval S.ff) := by
      simp only [phiVal]
      rw [phi_at_e]
      exact congrArg some (cv_none Z.ffP)
    have p1 : phiVal (V.lang cG vs) (some N.e0) (fun _ => none) ⟨N.x1, [(N.e0, .cst S.undef), (b, .inst (N.leaf b))]⟩ = some (V.cv vs S.undef) := by
      simp only [phiVal]
      rw [phi_at_e]
      rfl
    obtain ⟨te1, h1, h2⟩ := hdr (cG := cG) (vs0 := vs) (ws := vs) h (q := N.e0) (te := fun _ => none) (ext := [(N.x2, L.cval S.ff), (N.x1, V.cv vs S.undef)])
      (comb := fun w => if false then V.cv vs S.undef else w) (D := D) (mul := mul) ⟨_, false, _, Z.ff, rfl, rfl⟩ (by
      intro e he
      rcases List.mem_cons.1 he with rfl | he
      · exact ⟨_, List.mem_cons_self .., rfl, p2⟩
      · rw [List.mem_singleton] at he
        subst he
        exact ⟨_, List.mem_cons_of_mem _ (List.mem_singleton.2 rfl), rfl, p1⟩) (by
      intro p hp
      rcases List.mem_cons.1 hp with rfl | hp
      · exact ⟨_, p2⟩
      · rw [List.mem_singleton] at hp
        subst hp
        exact ⟨_, p1⟩) ha
    exact ⟨_, _, te1, ⟨_, false, _, Z.ff, rfl, rfl⟩, h1, h2, fun _ _ => rfl⟩

/-- **One call eliminated, in a program**: every call that ends in the program ends the same way in the new program. -/
theorem tail_program (h : TailOk V N S accOp F f b k as K B call) (hK : KindOk V S D mul K) (Q : TailProg V P F f b k K B D) :
    ProgRefines V P (setFn P f (F.tailElim N V.param S as b k call.args K)) := by
  intro d
  induction d with
  | zero => intro g vs m hu; exact absurd rfl hu
  | succ d ih =>
    intro g vs m hu
    simp only [Conv.call] at hu ⊢
    by_cases hg : g = f
    · subst hg
      rw [Q.hP] at hu ⊢
      simp only at hu ⊢
      obtain ⟨b0, ⟨n, hn⟩, hne, he⟩ := Conv.invoke_ends hu
      have hset : setFn P g (F.tailElim N V.param S as b k call.args K) g = some (F.tailElim N V.param S as b k call.args K) := if_pos rfl
      rw [hset]
      simp only
      obtain ⟨ext, comb, te1, hst, hte, henv, hid⟩ := h.init hK (V.call (setFn P g (F.tailElim N V.param S as b k call.args K)) d) vs
      obtain ⟨n', r, hr, hrel⟩ := h.sim hK Q (P' := setFn P g (F.tailElim N V.param S as b k call.args K)) (d := d) (vs0 := vs) (fun e hed g' vs' m' hu' => by
          have h1 := Conv.call_mono (V := V) P hed g' vs' m' hu'
          rw [ih g' vs' m' (by rw [h1]; exact hu'), h1]) d (le_refl d) n vs (V.enter m) 0 none F.entry (fun _ => none) (V.enter m) [] b0 (V.enter m) [] (fun _ => none) N.e0 ext comb
        rfl ⟨_, .single _⟩ (V.enter_I m) hst (.inr ⟨rfl, rfl, te1, hte, henv⟩) hn hne
      have hee : V.leave (V.enter m) (V.enter m) = V.enter m := by
        have := V.leave_enter (V.enter m)
        rwa [V.enter_enter] at this
      rw [hee] at hr
      have hG : (F.tailElim N V.param S as b k call.args K).blk N.e0 = some ⟨[], [], .br F.entry⟩ := by
        unfold Func.tailElim
        exact if_pos rfl
      have hends : Ends (V.lang (V.call (setFn P g (F.tailElim N V.param S as b k call.args K)) d) vs) (F.tailElim N V.param S as b k call.args K) (V.enter m) r := by
        refine ⟨n' + 1, run_inl ?_ hr⟩
        exact step_goes (L := V.lang (V.call (setFn P g (F.tailElim N V.param S as b k call.args K)) d) vs) hG rfl rfl rfl
      rw [Conv.invoke_eq hends, he]
      cases b0 with
      | ub => exact absurd rfl hne
      | halt hh es =>
        simp only [TailRel, List.nil_append] at hrel
        subst hrel
        rfl
      | ret v mc es =>
        obtain ⟨v', rfl, hv⟩ := hrel
        simp only [Conv.result, List.nil_append]
        rw [hv, hid _ (Q.retD d vs (V.enter m) v mc es ⟨n, hn⟩)]
        have := V.leave_leave m (V.enter m) mc
        rw [V.leave_enter] at this
        rw [← this]
    · have : setFn P f (F.tailElim N V.param S as b k call.args K) g = P g := if_neg hg
      rw [this]
      cases hG : P g with
      | none => rfl
      | some G =>
        rw [hG] at hu
        simp only at hu ⊢
        exact Conv.invoke_le ih hu

end
end Cmmc.SSA
