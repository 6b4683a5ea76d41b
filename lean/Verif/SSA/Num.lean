import Verif.SSA.Cse
/-!
# Value numbers

`cls` gives numbers to some instructions. If instructions with the same number have the same opcode and operands with the same numbers,
they have the same value wherever both are available.
-/
namespace Cmmc.SSA
section
variable {Op C : Type}

/-- two operands have the same number -/
def SameNum (cls : Nat → Option Nat) (a b : Opd C) : Prop := a = b ∨ ∃ x y c, a = .inst x ∧ b = .inst y ∧ cls x = some c ∧ cls y = some c

/-- the numbers are consistent with the instructions -/
def Consistent (F : Func Op C) (mv : Op → Bool) (cls : Nat → Option Nat) : Prop :=
  (∀ x c, cls x = some c → ∃ d D i, F.blk d = some D ∧ i ∈ D.body ∧ i.id = x ∧ mv i.op = true ∧ Live F d) ∧
  ∀ x y c d D i e E j, cls x = some c → cls y = some c → F.blk d = some D → i ∈ D.body → i.id = x → F.blk e = some E → j ∈ E.body → j.id = y →
    i.op = j.op ∧ List.Forall₂ (SameNum cls) i.args j.args

theorem SameNum.refl (cls : Nat → Option Nat) (a : Opd C) : SameNum cls a a := .inl rfl

theorem SameNum.symm {cls : Nat → Option Nat} {a b : Opd C} (h : SameNum cls a b) : SameNum cls b a := by
  rcases h with h | ⟨x, y, c, h1, h2, h3, h4⟩
  · exact .inl h.symm
  · exact .inr ⟨y, x, c, h2, h1, h4, h3⟩

theorem SameNum.trans {cls : Nat → Option Nat} {a b c : Opd C} (h : SameNum cls a b) (h' : SameNum cls b c) : SameNum cls a c := by
  rcases h with rfl | ⟨x, y, k, rfl, rfl, h3, h4⟩
  · exact h'
  · rcases h' with rfl | ⟨x', y', k', e1, rfl, h3', h4'⟩
    · exact .inr ⟨x, y, k, rfl, rfl, h3, h4⟩
    · simp only [Opd.inst.injEq] at e1
      subst e1
      rw [h4] at h3'
      simp only [Option.some.injEq] at h3'
      subst h3'
      exact .inr ⟨x, y', k, rfl, rfl, h3, h4'⟩

/-- replacements by instructions with the same number -/
def Respects (cls : Nat → Option Nat) (σ : Nat → Opd C) : Prop := ∀ x, SameNum cls (.inst x) (σ x)

theorem Respects.sub {cls : Nat → Option Nat} {σ : Nat → Opd C} (h : Respects cls σ) (a : Opd C) : SameNum cls a (a.sub σ) := by
  cases a with
  | inst x => exact h x
  | cst c => exact .refl _ _

theorem Respects.forall {cls : Nat → Option Nat} {σ : Nat → Opd C} (h : Respects cls σ) {as bs : List (Opd C)} (hab : List.Forall₂ (SameNum cls) as bs) :
    List.Forall₂ (SameNum cls) (as.map (Opd.sub σ)) (bs.map (Opd.sub σ)) := by
  induction hab with
  | nil => exact .nil
  | cons h1 _ ih => exact .cons ((h.sub _).symm.trans (h1.trans (h.sub _))) ih

theorem Consistent.sub {F : Func Op C} {mv : Op → Bool} {cls : Nat → Option Nat} {σ : Nat → Opd C} (h : Consistent F mv cls) (hσ : Respects cls σ) :
    Consistent (F.sub σ) mv cls := by
  refine ⟨?_, ?_⟩
  · intro x c hx
    obtain ⟨d, D, i, hD, hi, hid, hm, hl⟩ := h.1 x c hx
    refine ⟨d, D.sub σ, i.sub σ, by simp [Func.sub, hD], List.mem_map.mpr ⟨i, hi, rfl⟩, hid, hm, (Func.sub_live σ d).mpr hl⟩
  · intro x y c d D i e E j hx hy hD hi hix hE hj hjy
    obtain ⟨D', hD', rfl⟩ := sub_blk hD
    obtain ⟨E', hE', rfl⟩ := sub_blk hE
    obtain ⟨i', hi', rfl⟩ := List.mem_map.mp hi
    obtain ⟨j', hj', rfl⟩ := List.mem_map.mp hj
    obtain ⟨h1, h2⟩ := h.2 x y c d D' i' e E' j' hx hy hD' hi' hix hE' hj' hjy
    exact ⟨h1, hσ.forall h2⟩

end
section
variable {L : Lang} {F : L.F}

/-- the equations hold, and available instructions with the same number have the same value -/
def NumEq (F : L.F) (mv : L.Op → Bool) (cls : Nat → Option Nat) (b k : Nat) (env : Env L) : Prop :=
  Eqns F mv b k env ∧ ∀ x y c, cls x = some c → cls y = some c → Avail F b k x → Avail F b k y → env x = env y

theorem evals_num {cls : Nat → Option Nat} {env : Env L} : ∀ {as bs : List (Opd L.C)}, List.Forall₂ (SameNum cls) as bs →
    (∀ x y c, .inst x ∈ as → .inst y ∈ bs → cls x = some c → cls y = some c → env x = env y) → evals L env as = evals L env bs := by
  intro as bs h
  induction h with
  | nil => intro _; rfl
  | @cons a b as bs h1 _ ih =>
    intro hv
    simp only [evals]
    rw [ih (fun x y c hx hy => hv x y c (List.mem_cons_of_mem _ hx) (List.mem_cons_of_mem _ hy))]
    have : eval L env a = eval L env b := by
      rcases h1 with rfl | ⟨x, y, c, rfl, rfl, h3, h4⟩
      · rfl
      · exact hv x y c (by simp) (by simp) h3 h4
    rw [this]

theorem numEq_inv {mv : L.Op → Bool} (hmv : Movable L mv) (P : Proper F) {cls : Nat → Option Nat} (hc : Consistent F mv cls) (hM : Nonempty L.M) :
    PointInv F (NumEq F mv cls) := by
  obtain ⟨m0⟩ := hM
  have E := eqns_inv hmv P
  refine ⟨⟨E.entry, ?_⟩, ?_, ?_⟩
  · intro x y c _ _ _ _; rfl
  · intro q b B A env env' hq he hA hB hQ hen
    refine ⟨E.enter q b B A env env' hq he hA hB hQ.1 hen, ?_⟩
    have key : ∀ x c, cls x = some c → Avail F b 0 x → env' x = env x ∧ Avail F q A.body.length x := by
      intro x c hx hav
      obtain ⟨d, D, i, hD, hi, rfl, _, _⟩ := hc.1 x c hx
      rcases P.avail_enter he hA hB hav with h | ⟨h, hav'⟩
      · obtain ⟨p, hp, e⟩ := List.mem_map.mp h
        exact absurd e (P.phi_ne_inst hB hD hp hi)
      · exact ⟨enterPhis_other hen _ (fun hm => h (List.mem_append.mpr (.inl hm))), hav'⟩
    intro x y c hx hy hax hay
    obtain ⟨e1, a1⟩ := key x c hx hax
    obtain ⟨e2, a2⟩ := key y c hy hay
    rw [e1, e2]
    exact hQ.2 x y c hx hy a1 a2
  · intro b k B i env vs v m m' es hb hB hi hQ hvs hs
    have hE := E.inst b k B i env vs v m m' es hb hB hi hQ.1 hvs hs
    refine ⟨hE, ?_⟩
    have hna := P.not_avail hB hi
    have keep : ∀ x, Avail F b k x → setEnv L env i.id v x = env x := by
      intro x hx
      refine setEnv_of_ne ?_
      rintro rfl
      exact hna hx
    -- one is available before, the other is the one just executed
    have new : ∀ x y c, cls x = some c → cls y = some c → Avail F b (k + 1) x → Avail F b k y → x = i.id →
        setEnv L env i.id v x = setEnv L env i.id v y := by
      intro x y c hx hy hax hay hxi
      obtain ⟨d, D, i1, hD, hi1, hid1, hm1, _⟩ := hc.1 x c hx
      obtain ⟨e, E', j, hE', hj, hjd, hm2, _⟩ := hc.1 y c hy
      obtain ⟨hop, hargs⟩ := hc.2 x y c d D i1 e E' j hx hy hD hi1 hid1 hE' hj hjd
      obtain ⟨us, u, a1, a2, a3⟩ := hE d D i1 hD hi1 hm1 (hid1 ▸ hax)
      obtain ⟨ws, w, b1, b2, b3⟩ := hE e E' j hE' hj hm2 (hjd ▸ avail_mono hay (Nat.le_succ k))
      have hav1 : ∀ z, Opd.inst z ∈ i1.args → Avail F b k z := by
        intro z hz
        have := P.arg_avail hb hD hi1 (hid1 ▸ hax : Avail F b (k + 1) i1.id) hz
        rcases avail_succ hB hi this with h | h
        · exact h
        · -- an instruction does not use itself
          exfalso
          have hii : DefIn F i1.id d := ⟨D, hD, List.mem_append.mpr (.inr (List.mem_map.mpr ⟨i1, hi1, rfl⟩))⟩
          have h0 := List.mem_of_getElem? hi
          have hib : DefIn F i.id b := ⟨B, hB, List.mem_append.mpr (.inr (List.mem_map.mpr ⟨i, h0, rfl⟩))⟩
          have hdb := P.home hii (show DefIn F i1.id b by rw [hid1, hxi]; exact hib)
          subst hdb
          have := Option.some.inj (hD.symm.trans hB)
          subst this
          have hii : i1 = i := by
            have hids := P.block_ids hB
            unfold Block.ids at hids
            rw [List.nodup_append] at hids
            exact List.inj_on_of_nodup_map hids.2.1 hi1 h0 (by rw [hid1, hxi])
          subst hii
          subst h
          exact hna (P.use_avail hB hb hi hz)
      have heq : evals L (setEnv L env i.id v) i1.args = evals L (setEnv L env i.id v) j.args := by
        refine evals_num hargs ?_
        intro z z' c' hz hz' hcz hcz'
        have ha := hav1 z hz
        have ha' := P.arg_avail hb hE' hj (hjd ▸ hay : Avail F b k j.id) hz'
        rw [keep z ha, keep z' ha']
        exact hQ.2 z z' c' hcz hcz' ha ha'
      rw [a1, b1] at heq
      have := Option.some.inj heq
      subst this
      have h1 := a3 m0
      have h2 := b3 m0
      rw [hop, h2] at h1
      simp only [Res.ok.injEq] at h1
      rw [← hid1, ← hjd, a2, b2, h1.1]
    intro x y c hx hy hax hay
    rcases avail_succ hB hi hax with h1 | h1 <;> rcases avail_succ hB hi hay with h2 | h2
    · rw [keep x h1, keep y h2]; exact hQ.2 x y c hx hy h1 h2
    · exact (new y x c hy hx hay h1 h2).symm
    · exact new x y c hx hy hax h2 h1
    · rw [h1, h2]

/-- replacing an instruction by an earlier one with the same number -/
theorem num_replace {mv : L.Op → Bool} (hmv : Movable L mv) (P : Proper F) {cls : Nat → Option Nat} (hc : Consistent F mv cls) {x r c : Nat}
    (hx : cls x = some c) (hr : cls r = some c) (hb : Before F r x) : Good F (F.replace x (.inst r)) ∧ Consistent (F.replace x (.inst r)) mv cls := by
  refine ⟨⟨fun m => ?_, proper_sub P (earlier_one (fun y e => ?_)), sameIds_sub F _⟩, hc.sub ?_⟩
  · refine (replace_ok (numEq_inv hmv P hc ⟨m⟩) P (v := .inst r) (x := x) ?_ ?_).1 m
    · intro b k env _ _ hQ hav
      exact (hQ.2 x r c hx hr hav (hb.avail P hav)).symm
    · intro y e; simp only [Opd.inst.injEq] at e; exact e ▸ hb
  · simp only [Opd.inst.injEq] at e; exact e ▸ hb
  · intro z
    unfold one
    split
    · rename_i e; subst e; exact .inr ⟨z, r, c, rfl, rfl, hx, hr⟩
    · exact .inl rfl

end
end Cmmc.SSA
