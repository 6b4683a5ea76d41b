import Verif.Mir.Scan
import Mathlib.Data.List.Perm.Basic
import Mathlib.Data.List.Nodup
import Mathlib.Logic.Relation

/-!
# Exchanging independent instructions
-/

namespace Cmmc.Mir

section
variable {Val Mem : Type} {T : Target} {I : Interp Val Mem} {F : Flags} {f g : Func}

theorem writes_mem {r : Reg} : ∀ (ds : List Reg) (vs : List Val) (σ σ' : Reg → Val), r ∈ ds → vs.length = ds.length →
    writes σ ds vs r = writes σ' ds vs r := by
  intro ds
  induction ds with
  | nil => intro vs σ σ' h; simp at h
  | cons d ds ih =>
    intro vs σ σ' h hl
    cases vs with
    | nil => simp at hl
    | cons v vs =>
      simp only [List.length_cons, Nat.add_right_cancel_iff] at hl
      unfold writes
      by_cases hr : r ∈ ds
      · exact ih vs _ _ hr hl
      · rw [writes_not_mem _ _ _ hr, writes_not_mem _ _ _ hr]
        rcases List.mem_cons.1 h with rfl | h
        · simp
        · exact absurd h hr

theorem writes_comm {d1 d2 : List Reg} {v1 v2 : List Val} {σ : Reg → Val} (h1 : v1.length = d1.length)
    (h2 : v2.length = d2.length) (hd : ∀ r ∈ d1, r ∉ d2) :
    writes (writes σ d1 v1) d2 v2 = writes (writes σ d2 v2) d1 v1 := by
  funext q
  by_cases hq : q ∈ d2
  · have hq1 : q ∉ d1 := fun h => hd q h hq
    rw [writes_not_mem d1 _ _ hq1]
    exact writes_mem _ _ _ _ hq h2
  · rw [writes_not_mem d2 _ _ hq]
    by_cases hq1 : q ∈ d1
    · exact writes_mem _ _ _ _ hq1 h1
    · rw [writes_not_mem d1 _ _ hq1, writes_not_mem d1 _ _ hq1, writes_not_mem d2 _ _ hq]

/-- The registers whose values an instruction reads. -/
def Inst.readRegs (x : Inst) : List Reg := x.uses ++ x.args.map .ph

theorem reads_congr {x : Inst} {σ σ' : Reg → Val} (h : ∀ r ∈ x.readRegs, σ r = σ' r) : x.reads σ = x.reads σ' := by
  unfold Inst.reads
  congr 1
  · apply List.map_congr_left
    intro r hr
    exact h r (by simp [Inst.readRegs, hr])
  · apply List.map_congr_left
    intro p hp
    exact h _ (by simp [Inst.readRegs, hp])

/-- Two instructions that do not touch the same registers, at most one of which is visible. -/
structure Indep (T : Target) (F : Flags) (x y : Inst) : Prop where
  tx : x.Typed F
  ty : y.Typed F
  vis : F.vis x.op = false ∨ F.vis y.op = false
  xr : ∀ r ∈ x.dsts T, r ∉ y.readRegs
  ww : ∀ r ∈ x.dsts T, r ∉ y.dsts T
  yr : ∀ r ∈ y.dsts T, r ∉ x.readRegs

theorem Indep.symm {x y : Inst} (h : Indep T F x y) : Indep T F y x :=
  ⟨h.ty, h.tx, h.vis.symm, h.yr, fun r hy hx => h.ww r hx hy, h.xr⟩

/-- An instruction without visible effect always has exactly one effect, whatever the memory. -/
theorem quiet_fn (hF : F.Ok I) {x : Inst} (ht : x.Typed F) (hv : F.vis x.op = false) :
    ∃ w : List Val → List Val, (∀ σ : Reg → Val, (w (x.reads σ)).length = (x.dsts T).length) ∧
      ∀ (σ : Reg → Val) m ρ m' k, Eff T I x σ m ρ m' k ↔ ρ = writes σ (x.dsts T) (w (x.reads σ)) ∧ m' = m := by
  obtain ⟨g, hg⟩ := hF.fn x.op hv
  have hb := ht.bare hv
  obtain ⟨h1, h2, h3, h4⟩ := hb
  refine ⟨g, fun σ => ?_, fun σ m ρ m' k => ?_⟩
  · rw [dsts_of_bare h2, show x.reads σ = x.uses.map σ by simp [Inst.reads, h1], (hg _ (by simpa using h3)).1, h4]
  · rw [dsts_of_bare h2, show x.reads σ = x.uses.map σ by simp [Inst.reads, h1]]
    exact quiet_eff hg rfl ⟨h1, h2, h3, h4⟩

/-- Exchange a silent instruction with the next one. -/
theorem swap_first (hF : F.Ok I) {x y : Inst} (h : Indep T F x y) (hv : F.vis x.op = false)
    {σ σ1 σ2 : Reg → Val} {m m1 m' : Mem} {k1 k : Nat} (hx : Eff T I x σ m σ1 m1 k1) (hy : Eff T I y σ1 m1 σ2 m' k) :
    ∃ σ', Eff T I y σ m σ' m' k ∧ ∀ k', Eff T I x σ' m' σ2 m' k' := by
  obtain ⟨w, hw, he⟩ := quiet_fn (T := T) hF h.tx hv
  obtain ⟨rfl, rfl⟩ := (he _ _ _ _ _).1 hx
  obtain ⟨vs, y1, y2, rfl⟩ := hy
  have hr : y.reads (writes σ (x.dsts T) (w (x.reads σ))) = y.reads σ :=
    reads_congr fun r hr => writes_not_mem _ _ _ fun hc => h.xr r hc hr
  rw [hr] at y1
  refine ⟨_, ⟨vs, y1, y2, rfl⟩, fun k' => (he _ _ _ _ _).2 ⟨?_, rfl⟩⟩
  have hr' : x.reads (writes σ (y.dsts T) vs) = x.reads σ :=
    reads_congr fun r hr => writes_not_mem _ _ _ fun hc => h.yr r hc hr
  rw [hr']
  exact writes_comm (hw σ) y2 h.ww

/-- Exchange an instruction with a silent one after it. -/
theorem swap_second (hF : F.Ok I) {x y : Inst} (h : Indep T F x y) (hv : F.vis y.op = false)
    {σ σ1 : Reg → Val} {m m' : Mem} {k : Nat} (hx : Eff T I x σ m σ1 m' k) :
    ∃ σ' ρ, (∀ k', Eff T I y σ m σ' m k') ∧ Eff T I x σ' m ρ m' k ∧ ∀ k', Eff T I y σ1 m' ρ m' k' := by
  obtain ⟨w, hw, he⟩ := quiet_fn (T := T) hF h.ty hv
  obtain ⟨vs, x1, x2, rfl⟩ := hx
  have hr : x.reads (writes σ (y.dsts T) (w (y.reads σ))) = x.reads σ :=
    reads_congr fun r hr => writes_not_mem _ _ _ fun hc => h.yr r hc hr
  have hr' : y.reads (writes σ (x.dsts T) vs) = y.reads σ :=
    reads_congr fun r hr => writes_not_mem _ _ _ fun hc => h.xr r hc hr
  refine ⟨_, writes (writes σ (y.dsts T) (w (y.reads σ))) (x.dsts T) vs, fun k' => (he _ _ _ _ _).2 ⟨rfl, rfl⟩,
    ⟨vs, by rw [hr]; exact x1, x2, rfl⟩, fun k' => (he _ _ _ _ _).2 ⟨?_, rfl⟩⟩
  rw [hr']
  exact (writes_comm x2 (hw σ) h.ww).symm

/-! ## In a function -/

/-- `g` is `f` with two adjacent instructions of block `b0` exchanged, not the last one. -/
structure SwapAt (T : Target) (F : Flags) (f g : Func) (b0 : Nat) (pre : List Inst) (x y : Inst) (post : List Inst)
    (t0 : Term) : Prop where
  here : f[b0]? = some { insts := pre ++ x :: y :: post, term := t0 }
  out : g = f.set b0 { insts := pre ++ y :: x :: post, term := t0 }
  ne : post ≠ []
  ind : Indep T F x y

section
variable {b0 : Nat} {pre post : List Inst} {x y : Inst} {t0 : Term}

theorem SwapAt.there (h : SwapAt T F f g b0 pre x y post t0) :
    g[b0]? = some { insts := pre ++ y :: x :: post, term := t0 } := by
  rw [h.out]
  exact List.getElem?_set_self (List.getElem?_eq_some_iff.1 h.here).1

theorem SwapAt.symm (h : SwapAt T F f g b0 pre x y post t0) : SwapAt T F g f b0 pre y x post t0 := by
  refine ⟨h.there, ?_, h.ne, h.ind.symm⟩
  rw [h.out, List.set_set]
  obtain ⟨h1, h2⟩ := List.getElem?_eq_some_iff.1 h.here
  rw [← h2]
  exact (List.set_getElem_self h1).symm

theorem SwapAt.len (h : SwapAt T F f g b0 pre x y post t0) : g.length = f.length := by rw [h.out]; simp

theorem SwapAt.other (h : SwapAt T F f g b0 pre x y post t0) {b : Nat} (hb : b ≠ b0) : g[b]? = f[b]? := by
  rw [h.out, List.getElem?_set_ne (Ne.symm hb)]

theorem get_swap_ne {α : Type} (pre post : List α) (x y : α) {i : Nat} (h1 : i ≠ pre.length) (h2 : i ≠ pre.length + 1) :
    (pre ++ y :: x :: post)[i]? = (pre ++ x :: y :: post)[i]? := by
  rcases Nat.lt_or_ge i pre.length with h | h
  · rw [List.getElem?_append_left h, List.getElem?_append_left h]
  · rw [List.getElem?_append_right h, List.getElem?_append_right h]
    obtain ⟨j, hj⟩ : ∃ j, i - pre.length = j + 2 := ⟨i - pre.length - 2, by omega⟩
    rw [hj]; rfl

/-- Away from the two instructions the two functions are the same. -/
theorem SwapAt.same_inst (h : SwapAt T F f g b0 pre x y post t0) {b i : Nat} {B : Block} {z : Inst} (hB : f[b]? = some B)
    (hz : B.insts[i]? = some z) (hne : ¬ (b = b0 ∧ (i = pre.length ∨ i = pre.length + 1))) :
    ∃ B', g[b]? = some B' ∧ B'.insts[i]? = some z ∧ B'.insts.length = B.insts.length ∧ B'.term = B.term := by
  by_cases hb : b = b0
  · subst hb
    rw [h.here] at hB
    cases hB
    refine ⟨_, h.there, ?_, by simp, rfl⟩
    simp only at hz ⊢
    rw [get_swap_ne pre post x y (fun hc => hne ⟨rfl, .inl hc⟩) (fun hc => hne ⟨rfl, .inr hc⟩)]
    exact hz
  · exact ⟨B, by rw [h.other hb]; exact hB, hz, rfl, rfl⟩

/-- Corresponding states. -/
def SwapRel (T : Target) (I : Interp Val Mem) (F : Flags) (b0 p : Nat) (x y : Inst) (s t : St Val Mem) : Prop :=
  s.b = t.b ∧ s.m = t.m ∧
  ((s.σ = t.σ ∧ s.i = t.i ∧ ¬ (s.b = b0 ∧ s.i = p + 1)) ∨
   (s.b = b0 ∧ s.i = p + 1 ∧ F.vis x.op = false ∧ t.i = p ∧ Eff T I x t.σ t.m s.σ s.m 0) ∨
   (s.b = b0 ∧ s.i = p + 1 ∧ F.vis y.op = false ∧ t.i = p + 2 ∧ Eff T I y s.σ s.m t.σ t.m 0))

theorem eff_k (hF : F.Ok I) {x : Inst} (ht : x.Typed F) (hv : F.vis x.op = false) {σ ρ : Reg → Val} {m m' : Mem} {k : Nat}
    (h : Eff T I x σ m ρ m' k) (k' : Nat) : Eff T I x σ m ρ m' k' := by
  obtain ⟨w, -, he⟩ := quiet_fn (T := T) hF ht hv
  exact (he _ _ _ _ _).2 ((he _ _ _ _ _).1 h)

theorem SwapAt.sim (hF : F.Ok I) (h : SwapAt T F f g b0 pre x y post t0) :
    Sim T I F.vis f g (SwapRel T I F b0 pre.length x y) := by
  have hlen : pre.length + 2 < (pre ++ y :: x :: post).length := by
    have := List.length_pos_of_ne_nil h.ne
    simp; omega
  have hlen' : pre.length + 2 < (pre ++ x :: y :: post).length := by
    have := List.length_pos_of_ne_nil h.ne
    simp; omega
  have gy : (pre ++ y :: x :: post)[pre.length]? = some y := by simp
  have gx : (pre ++ y :: x :: post)[pre.length + 1]? = some x := by
    rw [List.getElem?_append_right (by omega)]; simp
  have fx : (pre ++ x :: y :: post)[pre.length]? = some x := by simp
  have fy : (pre ++ x :: y :: post)[pre.length + 1]? = some y := by
    rw [List.getElem?_append_right (by omega)]; simp
  constructor
  · rintro ⟨b, i, σ, m⟩ ⟨b1, i1, τ, m1⟩ ⟨b', i', ρ, m'⟩ op ⟨h1, h2, hR⟩ hs ho
    simp only at h1 h2 hR
    subst h1 h2
    obtain ⟨B, z, k, hB, hz, hE, hn⟩ := step_iff.1 hs
    simp only at hB hz hE hn
    rw [opAt_eq hB hz] at ho
    cases ho
    rcases hR with ⟨rfl, rfl, hne⟩ | ⟨rfl, rfl, hv, rfl, hx⟩ | ⟨rfl, rfl, hv, rfl, hy⟩
    · by_cases hp : b = b0 ∧ i = pre.length
      · obtain ⟨rfl, rfl⟩ := hp
        rw [h.here] at hB
        cases hB
        simp only at hz hn
        rw [fx] at hz
        cases hz
        have hn' : b' = b ∧ i' = pre.length + 1 := by
          rcases hn with ⟨-, a, c⟩ | ⟨a, -, -⟩
          · exact ⟨a, c⟩
          · omega
        obtain ⟨rfl, rfl⟩ := hn'
        by_cases hv : F.vis x.op = false
        · -- `f` does the silent instruction first; `g` waits
          have hm : m' = m := by
            obtain ⟨w, -, he⟩ := quiet_fn (T := T) hF h.ind.tx hv
            exact ((he _ _ _ _ _).1 hE).2
          subst hm
          refine ⟨⟨b', pre.length, σ, m'⟩, ?_, rfl, rfl, .inr (.inl ⟨rfl, rfl, hv, rfl, eff_k hF h.ind.tx hv hE 0⟩)⟩
          simp only [shown, hv, Bool.false_eq_true, if_false]
          exact .nil
        · have hvy : F.vis y.op = false := by
            rcases h.ind.vis with hc | hc
            · exact absurd hc hv
            · exact hc
          obtain ⟨σ', ρ', e1, e2, e3⟩ := swap_second hF h.ind hvy hE
          refine ⟨⟨b', pre.length + 2, ρ', m'⟩, ?_, rfl, rfl, .inr (.inr ⟨rfl, rfl, hvy, rfl, e3 0⟩)⟩
          have s1 : Step T I g ⟨b', pre.length, σ, m⟩ ⟨b', pre.length + 1, σ', m⟩ :=
            step_iff.2 ⟨_, y, 0, h.there, gy, e1 0, .inl ⟨by simp only; omega, rfl, rfl⟩⟩
          have s2 : Step T I g ⟨b', pre.length + 1, σ', m⟩ ⟨b', pre.length + 2, ρ', m'⟩ :=
            step_iff.2 ⟨_, x, k, h.there, gx, e2, .inl ⟨by simp only; omega, rfl, rfl⟩⟩
          exact .sil s1 (opAt_eq h.there gy) hvy (Obs.one s2 (opAt_eq h.there gx))
      · have hne' : ¬ (b = b0 ∧ (i = pre.length ∨ i = pre.length + 1)) := by
          rintro ⟨a, c | c⟩
          · exact hp ⟨a, c⟩
          · exact hne ⟨a, c⟩
        obtain ⟨B', hB', hz', hl, htm⟩ := h.same_inst hB hz hne'
        have hs' : Step T I g ⟨b, i, σ, m⟩ ⟨b', i', ρ, m'⟩ := by
          rw [step_iff]
          refine ⟨B', z, k, hB', hz', hE, ?_⟩
          simp only
          rw [hl, htm, h.len]
          exact hn
        refine ⟨⟨b', i', ρ, m'⟩, Obs.one hs' (opAt_eq hB' hz'), rfl, rfl, .inl ⟨rfl, rfl, ?_⟩⟩
        simp only
        rintro ⟨rfl, hi⟩
        rcases hn with ⟨-, a, c⟩ | ⟨-, -, c⟩
        · exact hp ⟨a.symm, by omega⟩
        · omega
    · rw [h.here] at hB
      cases hB
      simp only at hz hn
      rw [fy] at hz
      cases hz
      have hn' : b' = b ∧ i' = pre.length + 2 := by
        rcases hn with ⟨-, a, c⟩ | ⟨a, -, -⟩
        · exact ⟨a, by omega⟩
        · omega
      obtain ⟨rfl, rfl⟩ := hn'
      obtain ⟨σ', e1, e2⟩ := swap_first hF h.ind hv hx hE
      refine ⟨⟨b', pre.length + 2, ρ, m'⟩, ?_, rfl, rfl, .inl ⟨rfl, rfl, by simp⟩⟩
      have s1 : Step T I g ⟨b', pre.length, τ, m⟩ ⟨b', pre.length + 1, σ', m'⟩ :=
        step_iff.2 ⟨_, y, k, h.there, gy, e1, .inl ⟨by simp only; omega, rfl, rfl⟩⟩
      have s2 : Step T I g ⟨b', pre.length + 1, σ', m'⟩ ⟨b', pre.length + 2, ρ, m'⟩ :=
        step_iff.2 ⟨_, x, 0, h.there, gx, e2 0, .inl ⟨by simp only; omega, rfl, rfl⟩⟩
      have o1 : Obs T I F.vis g ⟨b', pre.length, τ, m⟩ (shown F.vis y.op m') ⟨b', pre.length + 1, σ', m'⟩ :=
        Obs.one s1 (opAt_eq h.there gy)
      have o2 := Obs.one (eff := F.vis) s2 (opAt_eq h.there gx)
      have := o1.append o2
      simpa [shown, hv] using this
    · rw [h.here] at hB
      cases hB
      simp only at hz hn
      rw [fy] at hz
      cases hz
      have hn' : b' = b ∧ i' = pre.length + 2 := by
        rcases hn with ⟨-, a, c⟩ | ⟨a, -, -⟩
        · exact ⟨a, by omega⟩
        · omega
      obtain ⟨rfl, rfl⟩ := hn'
      obtain ⟨w, -, he⟩ := quiet_fn (T := T) hF h.ind.ty hv
      obtain ⟨rfl, rfl⟩ := (he _ _ _ _ _).1 hE
      obtain ⟨rfl, -⟩ := (he _ _ _ _ _).1 hy
      refine ⟨⟨b', pre.length + 2, writes σ (y.dsts T) (w (y.reads σ)), m'⟩, ?_, rfl, rfl, .inl ⟨rfl, rfl, by simp⟩⟩
      simp only [shown, hv, Bool.false_eq_true, if_false]
      exact .nil
  · rintro ⟨b, i, σ, m⟩ ⟨b1, i1, τ, m1⟩ m' ⟨h1, h2, hR⟩ hl
    simp only at h1 h2 hR
    subst h1 h2
    obtain ⟨B, z, ρ, k, hB, hz, hi, hE, hn⟩ := leaves_iff.1 hl
    simp only at hB hz hE hn hi
    have hmid : ¬ (b = b0 ∧ (i = pre.length ∨ i = pre.length + 1)) := by
      rintro ⟨rfl, hc⟩
      rw [h.here] at hB
      cases hB
      simp only at hi
      omega
    rcases hR with ⟨rfl, rfl, hne⟩ | ⟨rfl, rfl, hv, rfl, hx⟩ | ⟨rfl, rfl, hv, rfl, hy⟩
    · obtain ⟨B', hB', hz', hl', htm⟩ := h.same_inst hB hz hmid
      refine ⟨⟨b, i, σ, m⟩, .nil, leaves_iff.2 ⟨B', z, ρ, k, hB', hz', ?_, hE, ?_⟩⟩
      · simp only; rw [hl']; exact hi
      · simp only; rw [htm, h.len]; exact hn
    · exact absurd ⟨rfl, .inr rfl⟩ hmid
    · exact absurd ⟨rfl, .inr rfl⟩ hmid

/-- Exchanging two independent instructions cannot be seen. -/
theorem SwapAt.same (hF : F.Ok I) (h : SwapAt T F f g b0 pre x y post t0) : Same T I F.vis f g :=
  ⟨(h.sim hF).incl fun σ m => ⟨rfl, rfl, .inl ⟨rfl, rfl, by simp⟩⟩,
   (h.symm.sim hF).incl fun σ m => ⟨rfl, rfl, .inl ⟨rfl, rfl, by simp⟩⟩⟩

end

/-! ## Rearranging a block -/

/-- Moving one instruction forward over independent ones. -/
theorem move_front (hF : F.Ok I) {b0 : Nat} {t0 : Term} {x : Inst} {suf : List Inst} (hs : suf ≠ []) :
    ∀ (p pre : List Inst) (f : Func), f[b0]? = some { insts := pre ++ (p ++ x :: suf), term := t0 } →
      (∀ z ∈ p, Indep T F z x) →
      Same T I F.vis f (f.set b0 { insts := pre ++ (x :: p ++ suf), term := t0 }) := by
  intro p
  induction p with
  | nil =>
    intro pre f hf _
    have : f.set b0 { insts := pre ++ (x :: [] ++ suf), term := t0 } = f := by
      obtain ⟨h1, h2⟩ := List.getElem?_eq_some_iff.1 hf
      simp only [List.nil_append] at h2
      rw [List.cons_append, List.nil_append, ← h2]
      exact List.set_getElem_self h1
    rw [this]
    exact Same.refl
  | cons z p ih =>
    intro pre f hf hz
    have h1 := ih (pre ++ [z]) f (by rw [hf]; simp) fun w hw => hz w (by simp [hw])
    have hlt := (List.getElem?_eq_some_iff.1 hf).1
    refine h1.trans ?_
    have hsw : SwapAt T F (f.set b0 { insts := pre ++ [z] ++ (x :: p ++ suf), term := t0 })
        (f.set b0 { insts := pre ++ (x :: z :: p ++ suf), term := t0 }) b0 pre z x (p ++ suf) t0 := by
      refine ⟨?_, ?_, ?_, hz z (by simp)⟩
      · rw [List.getElem?_set_self hlt]; simp
      · rw [List.set_set]; simp
      · simp [hs]
    exact hsw.same hF

/-- Everything that must come before something else still does: `a` is the old order, `o` the new one. -/
theorem reorder_same (hF : F.Ok I) {b0 : Nat} {t0 : Term} {last : Inst} {ins : Nat → Inst} :
    ∀ (o a : List Nat) (pre : List Inst) (f : Func),
      f[b0]? = some { insts := pre ++ (a.map ins ++ [last]), term := t0 } →
      o.Perm a → a.Nodup →
      (∀ p u q w r, a = p ++ u :: q ++ w :: r → Indep T F (ins u) (ins w) ∨ ∃ p' q' r', o = p' ++ u :: q' ++ w :: r') →
      Same T I F.vis f (f.set b0 { insts := pre ++ (o.map ins ++ [last]), term := t0 }) := by
  intro o
  induction o with
  | nil =>
    intro a pre f hf hp _ _
    have : a = [] := hp.symm.eq_nil
    subst this
    have : f.set b0 { insts := pre ++ (([] : List Nat).map ins ++ [last]), term := t0 } = f := by
      obtain ⟨h1, h2⟩ := List.getElem?_eq_some_iff.1 hf
      rw [← h2]
      exact List.set_getElem_self h1
    rw [this]
    exact Same.refl
  | cons w o ih =>
    intro a pre f hf hp hn hord
    obtain ⟨p, r, rfl⟩ : ∃ p r, a = p ++ w :: r := List.append_of_mem (hp.mem_iff.1 (by simp))
    have hlt := (List.getElem?_eq_some_iff.1 hf).1
    have hno : (w :: o).Nodup := hp.nodup_iff.2 hn
    have hind : ∀ z ∈ p, Indep T F (ins z) (ins w) := by
      intro z hz
      obtain ⟨p1, p2, rfl⟩ := List.append_of_mem hz
      rcases hord p1 z p2 w r (by simp) with h | ⟨p', q', r', h⟩
      · exact h
      · exfalso
        cases p' with
        | nil =>
          simp only [List.nil_append, List.cons_append, List.cons.injEq] at h
          obtain ⟨rfl, h⟩ := h
          rw [List.nodup_cons] at hno
          exact hno.1 (by rw [h]; simp)
        | cons c p' =>
          simp only [List.cons_append, List.cons.injEq] at h
          obtain ⟨rfl, h⟩ := h
          rw [List.nodup_cons] at hno
          exact hno.1 (by rw [h]; simp)
    have h1 := move_front (I := I) hF (b0 := b0) (t0 := t0) (x := ins w) (suf := r.map ins ++ [last]) (by simp) (p.map ins) pre f
      (by rw [hf]; simp) (by
        intro z hz
        obtain ⟨j, hj, rfl⟩ := List.mem_map.1 hz
        exact hind j hj)
    refine h1.trans ?_
    have hp' : o.Perm (p ++ r) := by
      have : (w :: o).Perm (w :: (p ++ r)) := hp.trans List.perm_middle
      exact List.Perm.cons_inv this
    have hn' : (p ++ r).Nodup := hp'.nodup_iff.1 (List.nodup_cons.1 hno).2
    have hw' : w ∉ p ++ r := fun hc => (List.nodup_cons.1 hno).1 (hp'.mem_iff.2 hc)
    have h2 := ih (p ++ r) (pre ++ [ins w]) (f.set b0 { insts := pre ++ (ins w :: p.map ins ++ (r.map ins ++ [last])), term := t0 })
      (by rw [List.getElem?_set_self hlt]; simp) hp' hn' (by
        intro p1 u q v r1 he
        have hu : u ≠ w := by rintro rfl; exact hw' (by rw [he]; simp)
        have hv : v ≠ w := by rintro rfl; exact hw' (by rw [he]; simp)
        have hold : ∃ P Q R, p ++ w :: r = P ++ u :: Q ++ v :: R := by
          rw [List.append_assoc, List.cons_append] at he
          rcases List.append_eq_append_iff.1 he with ⟨as, e1, e2⟩ | ⟨bs, e1, e2⟩
          · -- p ends inside p1
            refine ⟨p ++ w :: as, q, r1, ?_⟩
            rw [e2]; simp
          · cases bs with
            | nil =>
              simp at e1 e2
              exact ⟨p ++ [w], q, r1, by rw [← e2]; simp⟩
            | cons c bs =>
              simp only [List.cons_append, List.cons.injEq] at e2
              obtain ⟨rfl, e2⟩ := e2
              rcases List.append_eq_append_iff.1 e2 with ⟨cs, d1, d2⟩ | ⟨cs, d1, d2⟩
              · -- q = bs? split
                cases cs with
                | nil =>
                  simp at d1 d2
                  exact ⟨p1, q ++ [w], r1, by rw [e1, ← d2, d1]; simp⟩
                | cons d cs =>
                  simp only [List.cons_append, List.cons.injEq] at d2
                  obtain ⟨rfl, d2⟩ := d2
                  exact ⟨p1, q, cs ++ w :: r, by rw [e1, d1]; simp⟩
              · refine ⟨p1, bs ++ w :: cs, r1, ?_⟩
                rw [e1, d2]; simp
        obtain ⟨P, Q, R, hPQR⟩ := hold
        rcases hord P u Q v R hPQR with h | ⟨p', q', r', h⟩
        · exact .inl h
        · right
          cases p' with
          | nil =>
            simp only [List.nil_append, List.cons_append, List.cons.injEq] at h
            exact absurd h.1.symm hu
          | cons c p' =>
            simp only [List.cons_append, List.cons.injEq] at h
            exact ⟨p', q', r', h.2⟩)
    rw [List.set_set] at h2
    have e : pre ++ [ins w] ++ (o.map ins ++ [last]) = pre ++ ((w :: o).map ins ++ [last]) := by simp
    rw [e] at h2
    exact h2

end

end Cmmc.Mir
