import Verif.Mir.SsaProp

/-!
# Propagating and hoisting constants on machine code cannot be seen
-/

namespace Cmmc.Mir

section
variable {Val Mem : Type} {T : Target} {I : Interp Val Mem} {F : Flags} {f : Func}

theorem at_get {p : Pos} {x : Inst} (h : f.at p = some x) : ∃ B, f[p.1]? = some B ∧ B.insts[p.2]? = some x := by
  unfold Func.at at h
  cases hB : f[p.1]? with
  | none => simp [hB] at h
  | some B => exact ⟨B, rfl, by simpa [hB] using h⟩

theorem ssaCopies_some {v s : Reg} (h : ssaCopies F f v = some s) :
    v.isVirt = true ∧ s.isVirt = true ∧ defCount f v ≤ 1 ∧ defCount f s ≤ 1 ∧
    (∃ p x, f.at p = some x ∧ matchCopy F x = some (v, s)) ∧
    ∃ p x, f.at p = some x ∧ F.const x.op = true ∧ x.defs.head? = some s := by
  have key : ∀ (L : List (Pos × Inst)) (m : Reg → Option Reg),
      (∀ v s, m v = some s → v.isVirt = true ∧ s.isVirt = true ∧ defCount f v ≤ 1 ∧ defCount f s ≤ 1 ∧
        (∃ p x, (p, x) ∈ f.all ∧ matchCopy F x = some (v, s)) ∧ isConstReg F f s = true) →
      (∀ a ∈ L, a ∈ f.all) → ∀ v s, (L.foldl (fun m e => ssaCopyStep F f m e.2) m) v = some s →
      v.isVirt = true ∧ s.isVirt = true ∧ defCount f v ≤ 1 ∧ defCount f s ≤ 1 ∧
        (∃ p x, (p, x) ∈ f.all ∧ matchCopy F x = some (v, s)) ∧ isConstReg F f s = true := by
    intro L
    induction L with
    | nil => intro m hm _ v s h; exact hm v s h
    | cons e L ih =>
      intro m hm hL v s h
      obtain ⟨p, x⟩ := e
      rw [List.foldl_cons] at h
      refine ih _ ?_ (fun a ha => hL a (List.mem_cons_of_mem _ ha)) v s h
      intro v s
      simp only
      unfold ssaCopyStep
      rcases hmc : matchCopy F x with _ | ⟨d, q⟩
      · exact hm v s
      · simp only
        by_cases hc : (d.isVirt && q.isVirt && isConstReg F f q && decide (defCount f d ≤ 1) && decide (defCount f q ≤ 1)) = true
        · rw [if_pos hc]
          simp only [Bool.and_eq_true, decide_eq_true_eq] at hc
          intro h
          by_cases e : v = d
          · subst e
            simp only [if_true, Option.some.injEq] at h
            subst h
            exact ⟨hc.1.1.1.1, hc.1.1.1.2, hc.1.2, hc.2, ⟨p, x, hL _ (List.mem_cons_self ..), hmc⟩, hc.1.1.2⟩
          · simp only [e, if_false] at h
            exact hm v s h
        · rw [if_neg hc]
          exact hm v s
  obtain ⟨h1, h2, h3, h4, ⟨p, x, h5, h6⟩, h7⟩ := key f.all _ (by simp) (fun _ => id) v s h
  refine ⟨h1, h2, h3, h4, ⟨p, x, mem_all.1 h5, h6⟩, ?_⟩
  unfold isConstReg at h7
  obtain ⟨⟨p', x'⟩, h8, h9⟩ := List.any_eq_true.1 h7
  simp only [Bool.and_eq_true, decide_eq_true_eq] at h9
  exact ⟨p', x', mem_all.1 h8, h9.1.1.1, h9.1.1.2⟩

/-- `s` is written once, and with the constant of opcode `op`. -/
def ConstDef (F : Flags) (f : Func) (s op : Nat) : Prop :=
  defCount f (.vr s) ≤ 1 ∧ F.const op = true ∧ ∃ p x, f.at p = some x ∧ x.op = op ∧ x.defs = [.vr s]

theorem const_defs (hF : F.Ok I) {x : Inst} (ht : x.Typed F) (hc : F.const x.op = true) {r : Reg} (h : x.defs.head? = some r) :
    x.defs = [r] := by
  obtain ⟨c1, -, c3⟩ := hF.const _ hc
  have := (ht.bare c1).2.2.2
  rw [c3] at this
  match hx : x.defs, this, h with
  | [d], _, h => simp at h; rw [h]

theorem vr_not_dsts {x : Inst} {v : Nat} (h : Reg.vr v ∉ x.defs) : Reg.vr v ∉ x.dsts T := by
  unfold Inst.dsts
  rw [List.mem_append, List.mem_map]
  rintro (⟨p, -, hp⟩ | h')
  · cases hp
  · exact h h'

/-- What is known at each point of the constants and their copies. -/
def SsaInv (hF : F.Ok I) (f : Func) (b i : Nat) (σ : Reg → Val) : Prop :=
  (∀ s op, ConstDef F f s op → LiveAt f s b i → hF.out op [] = [σ (.vr s)]) ∧
  (∀ v s op, ssaCopies F f (.vr v) = some (.vr s) → ConstDef F f s op → LiveAt f v b i →
    hF.out op [] = [σ (.vr v)] ∧ hF.out op [] = [σ (.vr s)])

theorem ssa_step (hF : F.Ok I) (ht : f.Typed F) {b : Nat} {B : Block} {i : Nat} {x : Inst} {σ ρ : Reg → Val}
    {m m' : Mem} {k : Nat} (hB : f[b]? = some B) (hx : B.insts[i]? = some x) (hJ : SsaInv hF f b i σ)
    (he : Eff T I x σ m ρ m' k) : After f b i k fun b i => SsaInv hF f b i ρ := by
  have hty := ht.inst B (List.mem_of_getElem? hB) x (List.mem_of_getElem? hx)
  -- a constant is loaded where it is written
  have hcd : ∀ s op, ConstDef F f s op → Reg.vr s ∈ x.defs → hF.out op [] = [ρ (.vr s)] := by
    intro s op ⟨c1, c2, p, y, c3, c4, c5⟩ hs
    obtain ⟨B', d1, d2⟩ := at_get c3
    obtain ⟨rfl, rfl⟩ := defCount_unique c1 hB hx hs d1 d2 (by rw [c5]; simp)
    rw [hB] at d1; cases d1
    rw [hx] at d2; cases d2
    obtain ⟨w, w1, w2⟩ := const_eff (T := T) (σ := σ) hF hty (by rw [c4]; exact c2) c5
    rw [← c4, w1, ((w2 _ _ _ _).1 he).1, upd_same]
  have hfr : ∀ v, Reg.vr v ∉ x.defs → ρ (.vr v) = σ (.vr v) := fun v hv => eff_frame he (vr_not_dsts hv)
  have key1 : ∀ s op, ConstDef F f s op → LiveAfter f s b i → hF.out op [] = [ρ (.vr s)] := by
    intro s op hc hl
    by_cases hs : Reg.vr s ∈ x.defs
    · exact hcd s op hc hs
    · rw [hfr s hs]
      exact hJ.1 s op hc ((liveAt_iff hB hx).2 (.inr ⟨hs, hl⟩))
  have key2 : ∀ v s op, ssaCopies F f (.vr v) = some (.vr s) → ConstDef F f s op → LiveAfter f v b i →
      hF.out op [] = [ρ (.vr v)] ∧ hF.out op [] = [ρ (.vr s)] := by
    intro v s op hm hc hl
    by_cases hv : Reg.vr v ∈ x.defs
    · obtain ⟨-, -, k1, k2, ⟨p, y, k3, k4⟩, -⟩ := ssaCopies_some hm
      obtain ⟨B', d1, d2⟩ := at_get k3
      have hyd : y.defs = [.vr v] := matchCopy_defs k4
      obtain ⟨rfl, rfl⟩ := defCount_unique k1 hB hx hv d1 d2 (by rw [hyd]; simp)
      rw [hB] at d1; cases d1
      rw [hx] at d2; cases d2
      have huse : Reg.vr s ∈ x.uses := by
        obtain ⟨-, ho⟩ := matchCopy_some k4
        simp [Inst.uses, ho]
      have hls := (liveAt_iff hB hx).2 (.inl huse)
      have hσ := hJ.1 s op hc hls
      obtain ⟨e1, -⟩ := (matchCopy_eff (T := T) hF hty k4).1 he
      have hvs : ρ (.vr v) = σ (.vr s) := by rw [e1, upd_same]
      refine ⟨by rw [hvs]; exact hσ, ?_⟩
      by_cases hs : Reg.vr s ∈ x.defs
      · exact hcd s op hc hs
      · rw [hfr s hs]; exact hσ
    · have hlv := (liveAt_iff hB hx).2 (.inr ⟨hv, hl⟩)
      obtain ⟨a1, a2⟩ := hJ.2 v s op hm hc hlv
      refine ⟨by rw [hfr v hv]; exact a1, ?_⟩
      by_cases hs : Reg.vr s ∈ x.defs
      · exact hcd s op hc hs
      · rw [hfr s hs]; exact a2
  intro B1 hB1
  rw [hB] at hB1; cases hB1
  constructor
  · intro hlt
    exact ⟨fun s op hc hl => key1 s op hc ⟨B, hB, .inl ⟨hlt, hl⟩⟩,
      fun v s op hm hc hl => key2 v s op hm hc ⟨B, hB, .inl ⟨hlt, hl⟩⟩⟩
  · intro hlen b' hb'
    have hg : f.goesTo b b' := ⟨B, k, hB, hb'⟩
    exact ⟨fun s op hc hl => key1 s op hc ⟨B, hB, .inr ⟨hlen, b', hg, hl⟩⟩,
      fun v s op hm hc hl => key2 v s op hm hc ⟨B, hB, .inr ⟨hlen, b', hg, hl⟩⟩⟩

theorem substUses_spec (m : Reg → Option Reg) (σ : Reg → Val) (x : Inst)
    (h : ∀ r ∈ x.uses, ∀ s, m r = some s → σ s = σ r) :
    (substUses m x).uses.map σ = x.uses.map σ ∧ (substUses m x).defs = x.defs := by
  have key : ∀ l : List (Role × Reg),
      (∀ r ∈ l.filterMap (fun (r, x) => if r = Role.use then some x else none), ∀ s, m r = some s → σ s = σ r) →
      ((l.map fun (role, r) => if role = Role.use then (role, (m r).getD r) else (role, r)).filterMap
          fun (r, x) => if r = Role.use then some x else none).map σ =
        (l.filterMap fun (r, x) => if r = Role.use then some x else none).map σ ∧
      ((l.map fun (role, r) => if role = Role.use then (role, (m r).getD r) else (role, r)).filterMap
          fun (r, x) => if r = Role.dfn then some x else none) =
        (l.filterMap fun (r, x) => if r = Role.dfn then some x else none) := by
    intro l
    induction l with
    | nil => intro _; simp
    | cons a l ih =>
      intro h
      obtain ⟨q, w⟩ := a
      cases q with
      | dfn =>
        obtain ⟨i1, i2⟩ := ih (by simpa using h)
        constructor
        · simpa using i1
        · simpa using i2
      | use =>
        have hw : ∀ s, m w = some s → σ s = σ w := fun s hs => h w (by simp) s hs
        obtain ⟨i1, i2⟩ := ih fun r hr => h r (by simp only [List.filterMap_cons, if_true, List.mem_cons]; exact .inr hr)
        constructor
        · simp only [List.map_cons, if_true, List.filterMap_cons, i1]
          congr 1
          cases hm : m w with
          | none => rfl
          | some s => simpa using hw s hm
        · simpa using i2
  exact key x.ops h

/-- Peephole.cpp:201-256: replacing the copy of a constant by the constant cannot be seen, provided no virtual
    register is read before it is written. -/
theorem applySSAPropagation_same (hF : F.Ok I) (ht : f.Typed F) (hl : ∀ v, ¬ LiveAt f v 0 0) :
    Same T I F.vis f (applySSAPropagation F f) := by
  unfold applySSAPropagation
  apply scan_same _ _ (SsaInv hF f) (fun _ _ _ _ => True)
  · exact ht.last
  · intros; rfl
  · exact fun σ => ⟨fun s _ _ h => absurd h (hl s), fun v _ _ _ _ h => absurd h (hl v)⟩
  · exact fun b B i x σ m ρ m' k hB hx hJ he => ssa_step hF ht hB hx hJ he
  · intros; trivial
  · intro b B i x s σ hB hx hJ _
    have hsp := substUses_spec (ssaCopies F f) σ x (by
      intro r hr s hs
      obtain ⟨v1, v2, v3, v4, -, p, y, v5, v6, v7⟩ := ssaCopies_some hs
      match r, s, v1, v2 with
      | .vr v, .vr s, _, _ =>
        obtain ⟨B', d1, d2⟩ := at_get v5
        have hty := ht.inst B' (List.mem_of_getElem? d1) y (List.mem_of_getElem? d2)
        obtain ⟨a1, a2⟩ := hJ.2 v s y.op hs ⟨v4, v6, p, y, v5, rfl, const_defs hF hty v6 v7⟩ (.use hB hx hr)
        rw [a1] at a2
        exact (List.cons.inj a2).1.symm)
    refine ⟨rfl, fun _ => rfl, fun m ρ m' k => ?_, fun _ _ _ _ _ => trivial⟩
    exact eff_congr (x := x) (y := substUses (ssaCopies F f) x) rfl hsp.1 hsp.2 rfl rfl

end

end Cmmc.Mir
