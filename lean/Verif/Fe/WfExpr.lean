import Verif.Fe.WfStep
/-!
# Emitted code is SSA: expressions
-/
namespace Cmmc.Fe
open Cmmc

/-- only the blocks `K` jump to `n` -/
def Only (c : Ctx) (n : Nat) (K : List Nat) : Prop := ∀ b t, Raw.term t ∈ c.code b → n ∈ t.targets → b ∈ K

theorem Inv.not_lpT {G : Gh} {c : Ctx} (h : Inv G c) {y : Nat} (hy : c.nb ≤ y) : ¬ lpT c y := by
  rintro ⟨p, hp, rfl | rfl⟩
  · have := (h.lpn p hp).1; omega
  · have := (h.lpn p hp).2; omega

theorem Only.new {G : Gh} {c : Ctx} (h : Inv G c) {n : Nat} (hn : c.nb ≤ n) : Only c n [] := by
  intro b t ht hnt
  have := (h.tgt b t ht n hnt).1
  omega

theorem Only.res {G G' : Gh} {c c' : Ctx} (h : Res G c G' c') {n : Nat} {K : List Nat} (ho : Only c n K) (hn : n < c.nb) (hl : ¬ lpT c n) : Only c' n K := by
  intro b t ht hnt
  rcases h.tg b t ht with h1 | h1
  · exact ho b t h1 hnt
  · rcases h1 n hnt with h2 | h2
    · omega
    · exact absurd h2 hl

theorem Only.term {c : Ctx} {n : Nat} {K : List Nat} (ho : Only c n K) (t : SSA.Term Cst) : Only (c.term t) n (c.cur :: K) := by
  intro b t' ht hnt
  rcases mem_push.1 (show _ ∈ (c.push _).code b from ht) with h | ⟨rfl, _⟩
  · exact List.mem_cons_of_mem _ (ho b t' h hnt)
  · simp

theorem newBlock_live {G : Gh} {c : Ctx} (w : Wf c) {S : Nat → Prop} {d : Prop} : Live (G.add c.nb S d) c.newBlock.2 ↔ Live G c := by
  have h := w.cur
  have : c.cur ≠ c.nb := by omega
  unfold Live LiveB
  show ¬ (if c.cur = c.nb then d else G.D c.cur) ∧ _ ↔ _
  rw [if_neg this]
  rfl

def okOB (G : Gh) (c : Ctx) (b : Nat) (o : Opd) : Prop := LiveB G c b → avOB G c b o

theorem liveB_same {G G' : Gh} {c c' : Ctx} {b : Nat} (hc : c'.code b = c.code b) (hD : G'.D b = G.D b) : LiveB G' c' b ↔ LiveB G c b := by
  unfold LiveB; rw [hc, hD]

theorem avB_same {G G' : Gh} {c c' : Ctx} {b : Nat} (hc : c'.code b = c.code b) (hA : G'.A b = G.A b) (i : Nat) : AvB G' c' b i ↔ AvB G c b i := by
  unfold AvB; rw [hc, hA]

theorem okOB_same {G G' : Gh} {c c' : Ctx} {b : Nat} (hc : c'.code b = c.code b) (h : G'.A b = G.A b ∧ G'.D b = G.D b)
    (hs : c.slots.length ≤ c'.slots.length) {o : Opd} (ho : okOB G c b o) : okOB G' c' b o := by
  intro hl x hx
  rcases ho ((liveB_same hc h.2).1 hl) x hx with h1 | h1
  · exact Or.inl (slot_mono hs h1)
  · exact Or.inr ((avB_same hc h.1 x).2 h1)

theorem Res.phiLive {G1 : Gh} {c1 c2 : Ctx} {inc : List (Nat × Opd)} {o : Opd} (hp : c1.phi inc = some (o, c2)) (hl : Live G1 c1) : Live G1 c2 := by
  unfold Ctx.phi at hp
  split at hp
  · simp only [Option.some.injEq, Prod.mk.injEq] at hp
    obtain ⟨_, rfl⟩ := hp
    exact (live_push (by intro t ht; cases ht)).2 hl
  · cases hp

theorem firstTerm_term {G : Gh} {c : Ctx} (h : Live G c) (t : SSA.Term Cst) : firstTerm ((c.term t).code c.cur) = some t := by
  show firstTerm ((c.push _).code c.cur) = _
  rw [push_cur, firstTerm_append_none _ h.2]
  rfl

section
variable {sigs : Sigs} {P : Wd}

/-- two new blocks at the insert point, and the branch to them -/
theorem fork {G : Gh} {c : Ctx} (h : Inv G c) {t : SSA.Term Cst} {o : Opd} (ho : OkO G c o) (hargs : t.args = [o])
    (ht : ∀ y, y ∈ t.targets ↔ y = c.nb ∨ y = c.nb + 1) :
    ∃ G', Res G c G' (c.newBlock.2.newBlock.2.term t) ∧ (∀ b, b = c.nb ∨ b = c.nb + 1 → G'.A b = Av G c ∧ G'.D b = ¬ Live G c) ∧
      (∀ b, b = c.nb ∨ b = c.nb + 1 → (c.newBlock.2.newBlock.2.term t).code b = []) ∧
      (Live G c → firstTerm ((c.newBlock.2.newBlock.2.term t).code c.cur) = some t) := by
  have hcur := h.wf.cur
  let G1 := G.add c.nb (Av G c) (¬ Live G c)
  let G2 := G1.add c.newBlock.2.nb (Av G c) (¬ Live G c)
  have r1 : Res G c G1 c.newBlock.2 := (Res.refl h).newBlock _ (fun i hi => h.av_odd hi)
  have r2 : Res G c G2 c.newBlock.2.newBlock.2 := r1.newBlock _ (fun i hi => h.av_odd hi)
  have hA : ∀ b, b = c.nb ∨ b = c.nb + 1 → G2.A b = Av G c ∧ G2.D b = ¬ Live G c := by
    rintro b (rfl | rfl)
    · simp only [G2, G1, Gh.add, Ctx.newBlock]; simp
    · simp only [G2, G1, Gh.add, Ctx.newBlock]; simp
  have hlive : Live G2 c.newBlock.2.newBlock.2 ↔ Live G c := (newBlock_live r1.inv.wf).trans (newBlock_live h.wf)
  have r3 : Res G c G2 (c.newBlock.2.newBlock.2.term t) := by
    refine r2.term ?_ ?_
    · intro x hx
      rw [hargs, List.mem_singleton] at hx
      rw [hx]
      exact r2.lift ho
    · intro y hy
      have hy' := (ht y).1 hy
      refine ⟨Or.inl (by omega), ?_, by omega, ?_, fun hl => ?_⟩
      · show y < c.nb + 1 + 1
        omega
      · intro p hp
        replace hp : _ ∈ c.code y := hp
        rw [h.wf.empty y (by omega)] at hp
        cases hp
      · obtain ⟨e1, e2⟩ := hA y hy'
        rw [e1, e2]
        exact ⟨not_not.2 (r2.back hl), fun i hi => r2.mono hl i hi⟩
  refine ⟨G2, r3, hA, ?_, ?_⟩
  · intro b hb
    show ((c.newBlock.2.newBlock.2).push _).code b = []
    rw [push_fix (c.newBlock.2.newBlock.2) _ (show b ≠ c.cur by omega)]
    exact h.wf.empty b (by omega)
  · intro hl
    exact firstTerm_term (hlive.2 hl) t

theorem wf_logic {and : Bool} {a b : Expr} {G : Gh} {c : Ctx} {q : QVal} {c' : Ctx} (hi : Inv G c)
    (iha : ∀ (G : Gh) (c : Ctx) (q : QVal) (c' : Ctx), Inv G c → emitE sigs P a c = some (q, c') → ∃ G', ER G c G' c' ∧ OkO G' c' q.o)
    (ihb : ∀ (G : Gh) (c : Ctx) (q : QVal) (c' : Ctx), Inv G c → emitE sigs P b c = some (q, c') → ∃ G', ER G c G' c' ∧ OkO G' c' q.o)
    (h : Logic sigs P and a b c q c') : ∃ G', ER G c G' c' ∧ OkO G' c' q.o := by
  obtain ⟨qa, c1, oa, ta, c2, qb, c3, ob, tb, c4, o, c5, h1, h2, h3, h4, h5, rfl, rfl⟩ := h
  obtain ⟨G1, r1, k1⟩ := iha G c qa c1 hi h1
  obtain ⟨r2, k2⟩ := er_getRValue r1.inv k1 h2
  obtain ⟨rt, kt⟩ := er_toBool r2.inv k2 ta
  have R0 := (r1.trans r2).trans rt
  generalize htb : toBool c2 oa ta = t at h3 h5 rt kt R0
  have hw := rt.inv.wf.cur
  obtain ⟨G3, R4, hA, hemp, hft⟩ := fork (t := if and then .cbr t.1 t.2.nb (t.2.nb + 1) else .cbr t.1 (t.2.nb + 1) t.2.nb) rt.inv kt
    (by cases and <;> rfl) (by intro y; cases and <;> simp [SSA.Term.targets, or_comm])
  generalize hd : ((t.2.newBlock).2.newBlock.2.term (if and then .cbr t.1 t.2.nb (t.2.nb + 1) else .cbr t.1 (t.2.nb + 1) t.2.nb)) = d at h3 R4 hemp hft
  have hdnb : d.nb = t.2.nb + 2 := by rw [← hd]; rfl
  have hdcur : d.cur = t.2.cur := by rw [← hd]; rfl
  have R5 : Res G1 t.2 G3 (d.setCur t.2.nb) := R4.setCur (Or.inr le_rfl) (by omega) (fun hl => by
    obtain ⟨e1, e2⟩ := hA t.2.nb (Or.inl rfl)
    have hl' := hl.1
    rw [e2, not_not] at hl'
    exact ⟨hl', fun i hi => Or.inl (by rw [e1]; exact hi)⟩)
  have f5 : Live G1 t.2 → Live G3 (d.setCur t.2.nb) := fun hl => ⟨by
      show ¬ G3.D t.2.nb
      rw [(hA t.2.nb (Or.inl rfl)).2, not_not]; exact hl, by
      show firstTerm (d.code t.2.nb) = none
      rw [hemp _ (Or.inl rfl)]; rfl⟩
  obtain ⟨G4, r3, k3⟩ := ihb G3 (d.setCur t.2.nb) qb c3 R5.inv h3
  obtain ⟨r4, k4⟩ := er_getRValue r3.inv k3 h4
  obtain ⟨ru, ku⟩ := er_toBool r4.inv k4 tb
  have R6 := (r3.trans r4).trans ru
  generalize hub : toBool c4 ob tb = u at h5 ru ku R6
  have R7 := R5.trans R6.toRes
  have f7 : Live G1 t.2 → Live G4 u.2 := fun hl => R6.fwd (f5 hl)
  have hAn : G4.A (t.2.nb + 1) = Av G1 t.2 ∧ G4.D (t.2.nb + 1) = ¬ Live G1 t.2 := by
    have := R6.agree (t.2.nb + 1) (by show _ < d.nb; omega)
    rw [this.1, this.2]
    exact hA _ (Or.inr rfl)
  have hun : t.2.nb + 2 ≤ u.2.nb := by have := R6.sm.nb; change d.nb ≤ u.2.nb at this; omega
  have hcode : u.2.code (t.2.nb + 1) = [] := by
    rw [R6.sm.fix (t.2.nb + 1) (by show _ < d.nb; omega) (by show _ ≠ t.2.nb; omega)]
    exact hemp _ (Or.inr rfl)
  have R8 : Res G1 t.2 G4 (u.2.term (.br (t.2.nb + 1))) := by
    refine R7.term (by intro x hx; simp [SSA.Term.args] at hx) ?_
    intro y hy
    simp only [SSA.Term.targets, List.mem_singleton] at hy
    subst hy
    refine ⟨Or.inl (by omega), by omega, by omega, by rw [hcode]; intro p hp; simp at hp, fun hl => ?_⟩
    rw [hAn.1, hAn.2]
    exact ⟨not_not.2 (R7.back hl), fun i hi => R7.mono hl i hi⟩
  generalize hv : (u.2.term (.br (t.2.nb + 1))) = v at h5 R8
  have hvnb : v.nb = u.2.nb := by rw [← hv]; rfl
  have hucur : u.2.cur ≠ t.2.nb + 1 := by
    rcases R6.sm.cur with e | e
    · rw [e]; show t.2.nb ≠ _; omega
    · change d.nb ≤ u.2.cur at e; omega
  have hvcode : v.code (t.2.nb + 1) = [] := by
    rw [← hv]
    show (u.2.push _).code _ = []
    rw [push_fix _ _ hucur.symm]
    exact hcode
  have R9 : Res G1 t.2 G4 (v.setCur (t.2.nb + 1)) := R8.setCur (Or.inr (by omega)) (by omega) (fun hl => by
    have hl' := hl.1
    rw [hAn.2, not_not] at hl'
    exact ⟨hl', fun i hi => Or.inl (by rw [hAn.1]; exact hi)⟩)
  have f9 : Live G1 t.2 → Live G4 (v.setCur (t.2.nb + 1)) := fun hl => ⟨by
      show ¬ G4.D (t.2.nb + 1)
      rw [hAn.2, not_not]; exact hl, by
      show firstTerm (v.code (t.2.nb + 1)) = none
      rw [hvcode]; rfl⟩
  have hext : ∀ b, d.code b <+: v.code b := fun b => (R6.sm.code b).trans (by rw [← hv]; exact push_code _ _ b)
  -- the phi
  obtain ⟨R10, k10⟩ := R9.phi h5 (by show t.2.nb ≤ t.2.nb + 1; omega) (by show t.2.nb + 1 ≠ 0; omega) (fun k hD => by
    have hl : Live G1 t.2 := by
      change ¬ G4.D (t.2.nb + 1) at hD
      rw [hAn.2, not_not] at hD; exact hD
    have hlu := f7 hl
    refine ⟨fun q o hq => ?_, fun q t' ht' hb => ?_⟩
    · rcases List.mem_cons.1 hq with e | hq
      · cases e
        refine ⟨by show t.2.cur < v.nb; omega, ?_, ⟨_, firstTerm_prefix (hext _) (hft hl), ?_⟩, fun x hx => by cases hx⟩
        · rw [(R9.agree _ hw).2]; exact hl.1
        · show t.2.nb + 1 ∈ _
          cases and <;> simp [SSA.Term.targets]
      · have e := List.mem_singleton.1 hq
        cases e
        refine ⟨?_, hlu.1, ⟨.br (t.2.nb + 1), ?_, by show t.2.nb + 1 ∈ _; simp [SSA.Term.targets]⟩, ?_⟩
        · show u.2.cur < v.nb
          rw [hvnb]; exact R6.inv.wf.cur
        · show firstTerm (v.code _) = _
          rw [← hv]; exact firstTerm_term hlu _
        · intro x hx
          rcases ku hlu x hx with h | h
          · left; show slot v.slots.length x; rw [← hv]; exact h
          · right
            refine h.imp id (fun h => ?_)
            show x ∈ idsT (v.code _)
            rw [← hv]; exact idsT_prefix (push_code _ _ _) h
    · have o1 : Only d (t.2.nb + 1) [t.2.cur] := by
        rw [← hd]
        exact Only.term (c := t.2.newBlock.2.newBlock.2) (fun b t' ht' hb => Only.new rt.inv (Nat.le_succ _) b t' ht' hb) _
      have hnl : ¬ lpT (d.setCur t.2.nb) (t.2.nb + 1) := by
        rintro ⟨p, hp, he⟩
        have hp' : p ∈ t.2.loops := by
          have : (d.setCur t.2.nb).loops = t.2.loops := R5.sm.loops
          rw [← this]; exact hp
        have := rt.inv.lpn p hp'
        rcases he with he | he <;> omega
      have o2 : Only u.2 (t.2.nb + 1) [t.2.cur] := Only.res R6.toRes (c := d.setCur t.2.nb) o1 (by show _ < d.nb; omega) hnl
      have o3 := o2.term (.br (t.2.nb + 1))
      rw [hv] at o3
      have := o3 q t' ht' hb
      rcases List.mem_cons.1 this with rfl | this
      · exact ⟨_, List.mem_cons_of_mem _ (List.mem_singleton.2 rfl)⟩
      · rw [List.mem_singleton.1 this]
        exact ⟨_, List.mem_cons_self ..⟩)
  have f10 : Live G1 t.2 → Live G4 c5 := fun hl => Res.phiLive h5 (f9 hl)
  obtain ⟨r11, k11⟩ := er_boolToInt R10.inv k10
  exact ⟨G4, R0.trans (ER.trans ⟨R10, f10⟩ r11), k11⟩

end
end Cmmc.Fe
