import Verif.Dom.Dfs
/-! # The second phase computes semidominators and immediate dominators -/
namespace Cmmc.Dom
open Cmmc.SCC (upd)
open Relation

section lt
variable {E : Nat → Nat → Prop} {r : Nat} {V : Nat → Prop} {dfn fa : Nat → Nat}

/-- the link-eval forest: vertices numbered above `k` are linked -/
structure Forest (V : Nat → Prop) (fa : Nat → Nat) (r : Nat) (dfn : Nat → Nat) (k : Nat) (s : LS) : Prop where
  unl : ∀ x, V x → dfn x ≤ k → s.f x = x ∧ s.ran x = x
  lk : ∀ x, V x → k < dfn x → Anc V fa r (s.f x) x ∧ s.f x ≠ x ∧
    ∀ y, Anc V fa r (s.f x) y → y ≠ s.f x → Anc V fa r y x → k < dfn y
  rn : ∀ x, V x → k < dfn x → Anc V fa r (s.f x) (s.ran x) ∧ Anc V fa r (s.ran x) x ∧
    ∀ y, Anc V fa r (s.f x) y → y ≠ s.f x → Anc V fa r y x → dfn (s.sdom (s.ran x)) ≤ dfn (s.sdom y)

theorem merge_spec (T : DFST E r V dfn fa) {k : Nat} : ∀ (n cur : Nat) (s : LS), V cur → dfn cur < n → Forest V fa r dfn k s →
    ∃ res s', merge dfn n cur s = some (res, s') ∧ Forest V fa r dfn k s' ∧ s'.sdom = s.sdom ∧ s'.idom = s.idom ∧ s'.tr = s.tr ∧
      V res ∧ dfn res ≤ k ∧ (dfn cur ≤ k → res = cur) ∧ (k < dfn cur → s'.f cur = res) ∧
      (∀ x, dfn cur < dfn x → s'.f x = s.f x ∧ s'.ran x = s.ran x) := by
  intro n
  induction n with
  | zero => intro cur s _ h; omega
  | succ n ih =>
    intro cur s hc hn F
    unfold merge
    by_cases hk : dfn cur ≤ k
    · rw [if_pos (F.unl cur hc hk).1]
      exact ⟨cur, s, rfl, F, rfl, rfl, rfl, hc, hk, fun _ => rfl, fun h => by omega, fun _ _ => ⟨rfl, rfl⟩⟩
    · have hk' : k < dfn cur := by omega
      obtain ⟨l1, l2, l3⟩ := F.lk cur hc hk'
      have hlt := T.anc_lt l1 l2
      rw [if_neg l2]
      obtain ⟨res, s1, e1, F1, h1, h2, h3, h4, h5, h6, h7, h8⟩ := ih (s.f cur) s (T.V_left l1) (by omega) F
      rw [e1]
      dsimp only
      have hfc : s1.f cur = s.f cur := (h8 cur hlt).1
      obtain ⟨m1, m2, m3⟩ := F1.lk cur hc hk'
      obtain ⟨r1, r2, r3⟩ := F1.rn cur hc hk'
      rw [hfc] at m1 m2 m3 r1 r3
      have hpV := T.V_left m1
      -- facts about the old parent `p`
      have hresp : Anc V fa r res (s.f cur) := by
        by_cases hpk : dfn (s.f cur) ≤ k
        · rw [h6 hpk]; exact .refl hpV
        · rw [← h7 (by omega)]; exact (F1.lk _ hpV (by omega)).1
      have hpy : ∀ y, Anc V fa r res y → y ≠ res → Anc V fa r y (s.f cur) → k < dfn y ∧ dfn (s1.sdom (s1.ran (s.f cur))) ≤ dfn (s1.sdom y) := by
        intro y hy hne hyp
        by_cases hpk : dfn (s.f cur) ≤ k
        · rw [h6 hpk] at hy hne
          exact absurd (T.anc_antisymm hyp (T.anc_le hy)) hne
        · have e := h7 (by omega)
          rw [← e] at hy hne
          exact ⟨(F1.lk _ hpV (by omega)).2.2 y hy hne hyp, (F1.rn _ hpV (by omega)).2.2 y hy hne hyp⟩
      have hranp : Anc V fa r res (s1.ran (s.f cur)) ∧ Anc V fa r (s1.ran (s.f cur)) (s.f cur) := by
        by_cases hpk : dfn (s.f cur) ≤ k
        · rw [(F1.unl _ hpV hpk).2, h6 hpk]; exact ⟨.refl hpV, .refl hpV⟩
        · have := F1.rn _ hpV (by omega)
          rw [h7 (by omega)] at this
          exact ⟨this.1, this.2.1⟩
      -- the chosen representative
      generalize hR : (if dfn (s1.sdom (s1.ran (s1.f cur))) < dfn (s1.sdom (s1.ran cur)) then s1.ran (s1.f cur) else s1.ran cur) = R
      have hst : (if dfn (s1.sdom (s1.ran (s1.f cur))) < dfn (s1.sdom (s1.ran cur)) then { s1 with ran := upd s1.ran cur (s1.ran (s1.f cur)) } else s1)
          = { s1 with ran := upd s1.ran cur R } := by
        rw [← hR]
        split
        · rfl
        · have : upd s1.ran cur (s1.ran cur) = s1.ran := by
            funext x; unfold upd; split
            · rename_i h; rw [h]
            · rfl
          rw [this]
      rw [hst]
      rw [hfc] at hR
      have hRle : dfn (s1.sdom R) ≤ dfn (s1.sdom (s1.ran (s.f cur))) ∧ dfn (s1.sdom R) ≤ dfn (s1.sdom (s1.ran cur)) := by
        rw [← hR]; split <;> omega
      have hRanc : Anc V fa r res R ∧ Anc V fa r R cur := by
        rw [← hR]; split
        · exact ⟨hranp.1, T.anc_trans hranp.2 m1⟩
        · exact ⟨T.anc_trans hresp r1, r2⟩
      refine ⟨res, _, rfl, ?_, h1, h2, h3, h4, h5, fun h => by omega, fun _ => upd_same _ _ _, ?_⟩
      · have hne : ∀ x, x ≠ cur → upd s1.f cur res x = s1.f x ∧ upd s1.ran cur R x = s1.ran x :=
          fun x hx => ⟨upd_ne _ _ hx, upd_ne _ _ hx⟩
        have hcase : ∀ y, Anc V fa r res y → y ≠ res → Anc V fa r y cur → k < dfn y ∧ dfn (s1.sdom R) ≤ dfn (s1.sdom y) := by
          intro y hy hyne hyc
          rcases Nat.le_total (dfn y) (dfn (s.f cur)) with hle | hle
          · have := hpy y hy hyne (T.anc_comparable hyc m1 hle)
            exact ⟨this.1, by omega⟩
          · by_cases hyp : y = s.f cur
            · have := hpy y hy hyne (by rw [hyp]; exact .refl hpV)
              exact ⟨this.1, by omega⟩
            · have hpy' := T.anc_comparable m1 hyc hle
              have := m3 y hpy' hyp hyc
              have := r3 y hpy' hyp hyc
              exact ⟨by omega, by omega⟩
        refine ⟨?_, ?_, ?_⟩
        · intro x hx hxk
          have hxc : x ≠ cur := fun e => by subst e; omega
          show upd s1.f cur res x = x ∧ upd s1.ran cur R x = x
          rw [(hne x hxc).1, (hne x hxc).2]; exact F1.unl x hx hxk
        · intro x hx hxk
          show Anc V fa r (upd s1.f cur res x) x ∧ upd s1.f cur res x ≠ x ∧ ∀ y, Anc V fa r (upd s1.f cur res x) y → y ≠ upd s1.f cur res x → Anc V fa r y x → k < dfn y
          by_cases hxc : x = cur
          · subst hxc
            rw [upd_same]
            exact ⟨T.anc_trans hresp m1, fun e => by subst e; omega, fun y a b c => (hcase y a b c).1⟩
          · rw [(hne x hxc).1]; exact F1.lk x hx hxk
        · intro x hx hxk
          show Anc V fa r (upd s1.f cur res x) (upd s1.ran cur R x) ∧ Anc V fa r (upd s1.ran cur R x) x ∧ ∀ y, Anc V fa r (upd s1.f cur res x) y → y ≠ upd s1.f cur res x → Anc V fa r y x →
            dfn (s1.sdom (upd s1.ran cur R x)) ≤ dfn (s1.sdom y)
          by_cases hxc : x = cur
          · subst hxc
            rw [upd_same, upd_same]
            exact ⟨hRanc.1, hRanc.2, fun y a b c => (hcase y a b c).2⟩
          · rw [(hne x hxc).1, (hne x hxc).2]; exact F1.rn x hx hxk
      · intro x hx
        have hxc : x ≠ cur := fun e => by subst e; omega
        show upd s1.f cur res x = s.f x ∧ upd s1.ran cur R x = s.ran x
        rw [upd_ne _ _ hxc, upd_ne _ _ hxc]
        exact h8 x (by omega)

/-- lowering the semidominator of an unlinked vertex keeps the forest -/
theorem Forest.lower (T : DFST E r V dfn fa) {k : Nat} {s : LS} (F : Forest V fa r dfn k s) {w v : Nat} (hw : dfn w ≤ k)
    (h : dfn v ≤ dfn (s.sdom w)) : Forest V fa r dfn k { s with sdom := upd s.sdom w v } := by
  refine ⟨F.unl, F.lk, ?_⟩
  intro x hx hxk
  obtain ⟨h1, h2, h3⟩ := F.rn x hx hxk
  refine ⟨h1, h2, fun y a b c => ?_⟩
  have hy := (F.lk x hx hxk).2.2 y a b c
  have hyw : y ≠ w := fun e => by subst e; omega
  show dfn (upd s.sdom w v (s.ran x)) ≤ dfn (upd s.sdom w v y)
  rw [upd_ne _ _ hyw]
  have := h3 y a b c
  by_cases hr : s.ran x = w
  · rw [hr, upd_same]; rw [hr] at this; omega
  · rw [upd_ne _ _ hr]; exact this

/-- state while the predecessors of `w` are scanned -/
structure SInv (E : Nat → Nat → Prop) (V : Nat → Prop) (fa : Nat → Nat) (r : Nat) (dfn : Nat → Nat) (w : Nat) (s : LS) : Prop where
  forest : Forest V fa r dfn (dfn w) s
  sdP : ∀ x, V x → dfn w < dfn x → IsSd E V dfn (s.sdom x) x
  sdU : ∀ x, V x → dfn x < dfn w → s.sdom x = x
  sdw : s.sdom w = w ∨ (V (s.sdom w) ∧ SemiPath E dfn (s.sdom w) w)

theorem semiLoop_spec (T : DFST E r V dfn fa) (fuel w : Nat) (hw : V w) (hpos : ∀ x, V x → dfn x ≠ 0) (hf : ∀ x, V x → dfn x < fuel) :
    ∀ (vs : List Nat) (s : LS), (∀ v ∈ vs, V v ∧ E v w) → SInv E V fa r dfn w s →
    ∃ s', semiLoop dfn fuel w vs s = some s' ∧ SInv E V fa r dfn w s' ∧ s'.idom = s.idom ∧ s'.tr = s.tr ∧
      (∀ x, x ≠ w → s'.sdom x = s.sdom x) ∧ dfn (s'.sdom w) ≤ dfn (s.sdom w) ∧
      (∀ v ∈ vs, (dfn v < dfn w → dfn (s'.sdom w) ≤ dfn v) ∧
        ∀ u, V u → dfn w < dfn u → Anc V fa r u v → dfn (s'.sdom w) ≤ dfn (s'.sdom u)) := by
  intro vs
  induction vs with
  | nil => intro s _ I; exact ⟨s, rfl, I, rfl, rfl, fun _ _ => rfl, Nat.le_refl _, by simp⟩
  | cons v vs ih =>
    intro s hvs I
    obtain ⟨hv, hE⟩ := hvs v (by simp)
    unfold semiLoop
    rw [if_neg (hpos v hv)]
    obtain ⟨res, s1, e1, F1, h1, h2, h3, h4, h5, h6, h7, h8⟩ := merge_spec T fuel v s hv (hf v hv) I.forest
    rw [e1]
    dsimp only
    have I1 : SInv E V fa r dfn w s1 := ⟨F1, by rw [h1]; exact I.sdP, by rw [h1]; exact I.sdU, by rw [h1]; exact I.sdw⟩
    -- the candidate is the source of a semi-path, unless it is `sdom w` itself
    have hcand : s1.ran v = w ∨ (V (s1.sdom (s1.ran v)) ∧ SemiPath E dfn (s1.sdom (s1.ran v)) w) := by
      by_cases hvk : dfn v ≤ dfn w
      · rw [(F1.unl v hv hvk).2]
        by_cases hvw : v = w
        · exact Or.inl hvw
        · right
          have : dfn v < dfn w := by
            rcases Nat.lt_or_ge (dfn v) (dfn w) with h | h
            · exact h
            · exact absurd (T.inj hv hw (by omega)) hvw
          rw [I1.sdU v hv this]
          exact ⟨hv, semi_edge hE⟩
      · have hvk : dfn w < dfn v := by omega
        obtain ⟨a1, a2, a3⟩ := F1.lk v hv hvk
        obtain ⟨b1, b2, b3⟩ := F1.rn v hv hvk
        have hrV := T.V_left b2
        by_cases hrk : dfn w < dfn (s1.ran v)
        · right
          have hsd := I1.sdP _ hrV hrk
          exact ⟨hsd.1, T.semi_extend hsd.2.1 hrk b2 hE⟩
        · by_cases hrw : s1.ran v = w
          · exact Or.inl hrw
          · right
            have hlt : dfn (s1.ran v) < dfn w := by
              rcases Nat.lt_or_ge (dfn (s1.ran v)) (dfn w) with h | h
              · exact h
              · exact absurd (T.inj hrV hw (by omega)) hrw
            rw [I1.sdU _ hrV hlt]
            refine ⟨hrV, T.semi_tree b2 ?_ hE⟩
            intro y y1 y2 y3
            refine a3 y (T.anc_trans b1 y1) ?_ y3
            intro e
            have : dfn (s1.ran v) < dfn y := T.anc_lt y1 (Ne.symm y2)
            have := T.anc_le b1
            rw [← e] at this; omega
    -- the state after the conditional update
    generalize hs2 : (if dfn (s1.sdom (s1.ran v)) < dfn (s1.sdom w) then { s1 with sdom := upd s1.sdom w (s1.sdom (s1.ran v)) } else s1) = s2
    have k1 : SInv E V fa r dfn w s2 ∧ s2.idom = s1.idom ∧ s2.tr = s1.tr ∧ (∀ x, x ≠ w → s2.sdom x = s1.sdom x) ∧
        dfn (s2.sdom w) ≤ dfn (s1.sdom w) ∧ dfn (s2.sdom w) ≤ dfn (s1.sdom (s1.ran v)) := by
      rw [← hs2]
      split
      · rename_i hlt
        have hrw : s1.ran v ≠ w := fun e => by rw [e] at hlt; omega
        obtain ⟨c1, c2⟩ := hcand.resolve_left hrw
        refine ⟨⟨F1.lower T (Nat.le_refl _) (Nat.le_of_lt hlt), ?_, ?_, ?_⟩, rfl, rfl, fun x hx => upd_ne _ _ hx, ?_, ?_⟩
        · intro x hx hk
          show IsSd E V dfn (upd s1.sdom w _ x) x
          rw [upd_ne _ _ (fun e => by subst e; omega)]; exact I1.sdP x hx hk
        · intro x hx hk
          show upd s1.sdom w _ x = x
          rw [upd_ne _ _ (fun e => by subst e; omega)]; exact I1.sdU x hx hk
        · show upd s1.sdom w _ w = w ∨ V (upd s1.sdom w _ w) ∧ _
          right
          show V (upd s1.sdom w _ w) ∧ SemiPath E dfn (upd s1.sdom w _ w) w
          rw [upd_same]; exact ⟨c1, c2⟩
        · show dfn (upd s1.sdom w _ w) ≤ _
          rw [upd_same]; omega
        · show dfn (upd s1.sdom w _ w) ≤ _
          rw [upd_same]; exact Nat.le_refl _
      · exact ⟨I1, rfl, rfl, fun _ _ => rfl, Nat.le_refl _, by omega⟩
    obtain ⟨I2, k2, k3, k4, k5, k6⟩ := k1
    obtain ⟨s', e', I', j1, j2, j3, j4, j5⟩ := ih s2 (fun x hx => hvs x (by simp [hx])) I2
    refine ⟨s', e', I', by rw [j1, k2, h2], by rw [j2, k3, h3], ?_, ?_, ?_⟩
    · intro x hx; rw [j3 x hx, k4 x hx, h1]
    · rw [← h1]; omega
    · intro v' hv'
      rcases List.mem_cons.mp hv' with rfl | hv'
      · constructor
        · intro hlt
          have : s1.sdom (s1.ran v') = v' := by
            rw [(F1.unl v' hv (by omega)).2, I1.sdU v' hv hlt]
          rw [this] at k6; omega
        · intro u hu huk huv
          have hvk : dfn w < dfn v' := by have := T.anc_le huv; omega
          have huw : u ≠ w := fun e => by subst e; omega
          rw [j3 u huw, k4 u huw]
          -- `u` lies below the root
          have hroot : Anc V fa r (s1.f v') u ∧ u ≠ s1.f v' := by
            have hres := h7 hvk
            rw [hres]
            have a1 := (F1.lk v' hv hvk).1
            rw [hres] at a1
            exact ⟨T.anc_comparable a1 huv (by omega), fun e => by subst e; omega⟩
          have := (F1.rn v' hv hvk).2.2 u hroot.1 hroot.2 huv
          omega
      · exact j5 v' hv'

/-- scanning all predecessors computes the semidominator -/
theorem semi_done (T : DFST E r V dfn fa) {w : Nat} (hw : V w) (hr : w ≠ r) {preds : List Nat} (hp : ∀ v, v ∈ preds ↔ (V v ∧ E v w)) {s : LS}
    (I : SInv E V fa r dfn w s)
    (H : ∀ v ∈ preds, (dfn v < dfn w → dfn (s.sdom w) ≤ dfn v) ∧
        ∀ u, V u → dfn w < dfn u → Anc V fa r u v → dfn (s.sdom w) ≤ dfn (s.sdom u)) : IsSd E V dfn (s.sdom w) w := by
  have hfa := (H (fa w) ((hp _).mpr ⟨T.fa_V hw hr, T.fa_E hw hr⟩)).1 (T.fa_lt hw hr)
  have hlt := T.fa_lt hw hr
  have hne : s.sdom w ≠ w := fun e => by rw [e] at hfa; omega
  obtain ⟨h1, h2⟩ := I.sdw.resolve_left hne
  refine ⟨h1, h2, fun v hv hvp => ?_⟩
  rcases T.semi_cases hv hvp with e | ⟨u, v', hu, huw, huv, e, hsu⟩
  · rcases Nat.lt_or_ge (dfn v) (dfn w) with h | h
    · exact (H v ((hp _).mpr ⟨hv, e⟩)).1 h
    · omega
  · have k1 := (H v' ((hp _).mpr ⟨T.V_right huv, e⟩)).2 u hu huw huv
    have k2 := (I.sdP u hu huw).2.2 v hv hsu
    omega

/-- the relative dominator recorded for `t` -/
def Rel (E : Nat → Nat → Prop) (V : Nat → Prop) (fa : Nat → Nat) (r : Nat) (dfn : Nat → Nat) (t d : Nat) : Prop :=
  ∃ s, IsSd E V dfn s t ∧
    ((d = s ∧ ∀ y sy, Anc V fa r s y → y ≠ s → Anc V fa r y t → IsSd E V dfn sy y → dfn s ≤ dfn sy) ∨
     (Anc V fa r s d ∧ d ≠ s ∧ Anc V fa r d t ∧ ∃ sd, IsSd E V dfn sd d ∧ dfn sd < dfn s ∧
        ∀ y sy, Anc V fa r s y → y ≠ s → Anc V fa r y t → IsSd E V dfn sy y → dfn sd ≤ dfn sy))

theorem bucketLoop_spec (T : DFST E r V dfn fa) {fuel k p : Nat} (hf : ∀ x, V x → dfn x < fuel) (hpk : dfn p ≤ k) :
    ∀ (ts : List Nat) (s : LS), Forest V fa r dfn k s → (∀ x, V x → k < dfn x → IsSd E V dfn (s.sdom x) x) →
      (∀ x, V x → dfn x ≤ k → s.sdom x = x) →
      (∀ t ∈ ts, V t ∧ k < dfn t ∧ t ≠ r ∧ IsSd E V dfn p t ∧ ∀ y, Anc V fa r p y → y ≠ p → Anc V fa r y t → k < dfn y) →
      ∃ s', bucketLoop dfn fuel p ts s = some s' ∧ Forest V fa r dfn k s' ∧ s'.sdom = s.sdom ∧ s'.tr = s.tr ∧
        (∀ t ∈ ts, Rel E V fa r dfn t (s'.idom t)) ∧ ∀ x, x ∉ ts → s'.idom x = s.idom x := by
  intro ts
  induction ts with
  | nil => intro s F _ _ _; exact ⟨s, rfl, F, rfl, rfl, by simp, fun _ _ => rfl⟩
  | cons t ts ih =>
    intro s F hP hU ht
    obtain ⟨tV, tk, tr, tsd, tb⟩ := ht t (by simp)
    unfold bucketLoop
    obtain ⟨res, s1, e1, F1, h1, h2, h3, h4, h5, h6, h7, h8⟩ := merge_spec T fuel t s tV (hf t tV) F
    rw [e1]
    dsimp only
    obtain ⟨pa, plt⟩ := T.sd_anc tV tr tsd
    -- the root is `p`
    have hres := h7 tk
    obtain ⟨a1, a2, a3⟩ := F1.lk t tV tk
    obtain ⟨b1, b2, b3⟩ := F1.rn t tV tk
    rw [hres] at a1 a2 a3 b1 b3
    have hresp : res = p := by
      rcases Nat.le_total (dfn res) (dfn p) with hle | hle
      · have hrp := T.anc_comparable a1 pa hle
        by_contra hne
        have := a3 p hrp (Ne.symm hne) pa
        omega
      · have hpr := T.anc_comparable pa a1 hle
        by_contra hne
        have := tb res hpr hne a1
        omega
    subst hresp
    have hmin : ∀ y sy, Anc V fa r res y → y ≠ res → Anc V fa r y t → IsSd E V dfn sy y → dfn (s1.sdom (s1.ran t)) ≤ dfn sy := by
      intro y sy y1 y2 y3 hsy
      have := b3 y y1 y2 y3
      have e := T.isSd_unique (hP y (T.V_right y1) (tb y y1 y2 y3)) hsy
      rw [h1, e] at this; rw [h1]; exact this
    have hrel : Rel E V fa r dfn t (if res = s1.sdom (s1.ran t) then res else s1.ran t) := by
      refine ⟨res, tsd, ?_⟩
      split
      · rename_i e
        left
        refine ⟨rfl, fun y sy y1 y2 y3 hsy => ?_⟩
        have := hmin y sy y1 y2 y3 hsy
        rw [← e] at this; exact this
      · rename_i hne
        right
        have hrne : s1.ran t ≠ res := by
          intro e
          rw [e, h1, hU res h4 hpk] at hne
          exact hne rfl
        have hk := tb _ b1 hrne b2
        have hsdr : IsSd E V dfn (s1.sdom (s1.ran t)) (s1.ran t) := by rw [h1]; exact hP _ (T.V_left b2) hk
        refine ⟨b1, hrne, b2, _, hsdr, ?_, hmin⟩
        have hle := hmin t res pa (fun e => by subst e; omega) (.refl tV) tsd
        rcases Nat.lt_or_ge (dfn (s1.sdom (s1.ran t))) (dfn res) with h | h
        · exact h
        · exact absurd (T.inj h4 hsdr.1 (by omega)) hne
    obtain ⟨s', e', F', j1, j2, j3, j4⟩ := ih { s1 with idom := upd s1.idom t (if res = s1.sdom (s1.ran t) then res else s1.ran t) }
      ⟨F1.unl, F1.lk, F1.rn⟩ (by rw [h1]; exact hP) (by rw [h1]; exact hU) (fun x hx => ht x (by simp [hx]))
    refine ⟨s', e', F', by rw [j1, h1], by rw [j2, h3], ?_, ?_⟩
    · intro x hx
      by_cases hxt : x ∈ ts
      · exact j3 x hxt
      · have hx : x = t := by simpa [hxt] using hx
        subst hx
        rw [j4 x hxt]
        show Rel E V fa r dfn x (upd s1.idom x _ x)
        rw [upd_same]; exact hrel
    · intro x hx
      simp only [List.mem_cons, not_or] at hx
      rw [j4 x hx.2]
      show upd s1.idom t _ x = _
      rw [upd_ne _ _ hx.1, h2]

/-- invariant of the main loop: vertices numbered above `k` are processed -/
structure LInv (E : Nat → Nat → Prop) (V : Nat → Prop) (fa : Nat → Nat) (r : Nat) (dfn : Nat → Nat) (k : Nat) (s : LS) : Prop where
  forest : Forest V fa r dfn k s
  sdP : ∀ x, V x → k < dfn x → IsSd E V dfn (s.sdom x) x
  sdU : ∀ x, V x → dfn x ≤ k → s.sdom x = x
  trOK : ∀ x t, t ∈ s.tr x → V t ∧ k < dfn t ∧ t ≠ r ∧ IsSd E V dfn x t ∧ ∃ c, V c ∧ c ≠ r ∧ fa c = x ∧ Anc V fa r c t ∧ dfn c ≤ k
  idOK : ∀ t, V t → k < dfn t → t ∈ s.tr (s.sdom t) ∨ Rel E V fa r dfn t (s.idom t)

theorem step_spec (T : DFST E r V dfn fa) {fuel : Nat} (hpos : ∀ x, V x → dfn x ≠ 0) (hf : ∀ x, V x → dfn x < fuel) {preds : Nat → List Nat}
    (hp : ∀ u v, u ∈ preds v ↔ (V u ∧ E u v)) {w : Nat} (hw : V w) (hr : w ≠ r) {k : Nat} (hk : dfn w = k + 1) {s : LS}
    (I : LInv E V fa r dfn (k + 1) s) : ∃ s', step dfn fuel preds fa w s = some s' ∧ LInv E V fa r dfn k s' := by
  unfold step
  have S0 : SInv E V fa r dfn w s := ⟨by rw [hk]; exact I.forest, by rw [hk]; exact I.sdP, fun x hx h => I.sdU x hx (by omega),
    Or.inl (I.sdU w hw (by omega))⟩
  obtain ⟨s1, e1, I1, h1, h2, h3, h4, h5⟩ := semiLoop_spec T fuel w hw hpos hf (preds w) s (fun v hv => (hp v w).mp hv) S0
  rw [e1]
  dsimp only
  have hsd := semi_done T hw hr (fun v => hp v w) I1 h5
  obtain ⟨sanc, slt⟩ := T.sd_anc hw hr hsd
  have hplt := T.fa_lt hw hr
  have hpV := T.fa_V hw hr
  generalize hs2 : ({ s1 with f := upd s1.f w (fa w), tr := upd s1.tr (s1.sdom w) (s1.tr (s1.sdom w) ++ [w]) } : LS) = s2
  have sd2 : s2.sdom = s1.sdom := by rw [← hs2]
  have f2 : s2.f = upd s1.f w (fa w) := by rw [← hs2]
  have ran2 : s2.ran = s1.ran := by rw [← hs2]
  have id2 : s2.idom = s1.idom := by rw [← hs2]
  have tr2 : s2.tr = upd s1.tr (s1.sdom w) (s1.tr (s1.sdom w) ++ [w]) := by rw [← hs2]
  have hxw : ∀ x, V x → k < dfn x → x ≠ w → dfn w < dfn x := by
    intro x hx h hne
    rcases Nat.lt_or_ge (dfn w) (dfn x) with h' | h'
    · exact h'
    · exact absurd (T.inj hx hw (by omega)) hne
  -- linking
  have F2 : Forest V fa r dfn k s2 := by
    refine ⟨?_, ?_, ?_⟩
    · intro x hx hxk
      rw [f2, ran2, upd_ne _ _ (fun e => by subst e; omega)]
      exact I1.forest.unl x hx (by omega)
    · intro x hx hxk
      rw [f2]
      by_cases hxc : x = w
      · subst hxc
        rw [upd_same]
        refine ⟨T.fa_anc hx hr, fun e => by rw [e] at hplt; omega, ?_⟩
        intro y y1 y2 y3
        have : y = x := by
          by_contra hne
          have := (T.anc_fa y3 hne).1
          exact y2 (T.anc_antisymm this (T.anc_le y1))
        subst this; omega
      · rw [upd_ne _ _ hxc]
        obtain ⟨a, b, c⟩ := I1.forest.lk x hx (hxw x hx hxk hxc)
        exact ⟨a, b, fun y y1 y2 y3 => by have := c y y1 y2 y3; omega⟩
    · intro x hx hxk
      rw [f2, ran2, sd2]
      by_cases hxc : x = w
      · subst hxc
        rw [upd_same, (I1.forest.unl x hx (by omega)).2]
        refine ⟨T.fa_anc hx hr, .refl hx, ?_⟩
        intro y y1 y2 y3
        have : y = x := by
          by_contra hne
          have := (T.anc_fa y3 hne).1
          exact y2 (T.anc_antisymm this (T.anc_le y1))
        rw [this]; exact Nat.le_refl _
      · rw [upd_ne _ _ hxc]
        exact I1.forest.rn x hx (hxw x hx hxk hxc)
  have P2 : ∀ x, V x → k < dfn x → IsSd E V dfn (s2.sdom x) x := by
    intro x hx hxk
    rw [sd2]
    by_cases hxc : x = w
    · subst hxc; exact hsd
    · exact I1.sdP x hx (hxw x hx hxk hxc)
  have U2 : ∀ x, V x → dfn x ≤ k → s2.sdom x = x := fun x hx h => by rw [sd2]; exact I1.sdU x hx (by omega)
  -- the buckets after adding `w`
  have tr2OK : ∀ x t, t ∈ s2.tr x → V t ∧ k < dfn t ∧ t ≠ r ∧ IsSd E V dfn x t ∧ ∃ c, V c ∧ c ≠ r ∧ fa c = x ∧ Anc V fa r c t ∧ dfn c ≤ k + 1 := by
    intro x t ht
    rw [tr2] at ht
    have old : t ∈ s1.tr x → V t ∧ k < dfn t ∧ t ≠ r ∧ IsSd E V dfn x t ∧ ∃ c, V c ∧ c ≠ r ∧ fa c = x ∧ Anc V fa r c t ∧ dfn c ≤ k + 1 := by
      intro h
      rw [h2] at h
      obtain ⟨a, b, c, d, e⟩ := I.trOK x t h
      exact ⟨a, by omega, c, d, e⟩
    by_cases hxs : x = s1.sdom w
    · subst hxs
      rw [upd_same, List.mem_append, List.mem_singleton] at ht
      rcases ht with ht | rfl
      · exact old ht
      · refine ⟨hw, by omega, hr, hsd, ?_⟩
        obtain ⟨c, c1, c2, c3, c4⟩ := T.child sanc (fun e => by rw [e] at slt; omega)
        exact ⟨c, c1, c2, c3, c4, by have := T.anc_le c4; omega⟩
    · rw [upd_ne _ _ hxs] at ht; exact old ht
  have hbetween : ∀ t, t ∈ s2.tr (fa w) → ∀ y, Anc V fa r (fa w) y → y ≠ fa w → Anc V fa r y t → k < dfn y := by
    intro t ht y y1 y2 y3
    obtain ⟨tV, tk, trr, tsd, c, c1, c2, c3, c4, c5⟩ := tr2OK _ t ht
    -- the child towards `t` is `w`
    have hcw : c = w := by
      by_contra hne
      have hclt : dfn c < dfn w := by
        rcases Nat.lt_or_ge (dfn c) (dfn w) with h | h
        · exact h
        · exact absurd (T.inj c1 hw (by omega)) hne
      have hcw := T.interval c4 hw (by omega) (by omega)
      have h1 := T.anc_le (T.anc_fa hcw hne).1
      have h2 := T.fa_lt c1 c2
      rw [c3] at h2
      omega
    subst hcw
    rcases Nat.lt_or_ge (dfn y) (dfn c) with h | h
    · exfalso
      have hyc := T.anc_comparable y3 c4 (by omega)
      have := (T.anc_fa hyc (fun e => by subst e; omega)).1
      exact y2 (T.anc_antisymm this (T.anc_le y1))
    · omega
  obtain ⟨s3, e3, F3, j1, j2, j3, j4⟩ := bucketLoop_spec T (E := E) (fuel := fuel) (k := k) (p := fa w) hf (by omega) (s2.tr (fa w)) s2 F2 P2 U2
    (fun t ht => by
      obtain ⟨a, b, c, d, _⟩ := tr2OK _ t ht
      exact ⟨a, b, c, d, hbetween t ht⟩)
  rw [← tr2, e3]
  refine ⟨_, rfl, ⟨F3.unl, F3.lk, F3.rn⟩, ?_, ?_, ?_, ?_⟩
  · show ∀ x, V x → k < dfn x → IsSd E V dfn (s3.sdom x) x
    rw [j1]; exact P2
  · show ∀ x, V x → dfn x ≤ k → s3.sdom x = x
    rw [j1]; exact U2
  · intro x t ht
    change t ∈ upd s3.tr (fa w) [] x at ht
    by_cases hx : x = fa w
    · subst hx; rw [upd_same] at ht; simp at ht
    · rw [upd_ne _ _ hx, j2] at ht
      obtain ⟨a, b, c, d, e, e1, e2, e3, e4, e5⟩ := tr2OK x t ht
      refine ⟨a, b, c, d, e, e1, e2, e3, e4, ?_⟩
      have : e ≠ w := fun h => hx (by rw [← e3, h])
      rcases Nat.lt_or_ge (dfn e) (dfn w) with h | h
      · omega
      · exact absurd (T.inj e1 hw (by omega)) this
  · intro t ht htk
    show t ∈ upd s3.tr (fa w) [] (s3.sdom t) ∨ Rel E V fa r dfn t (s3.idom t)
    by_cases hb : t ∈ s2.tr (fa w)
    · exact Or.inr (j3 t hb)
    · rw [j4 t hb, id2, h1, j1, j2, sd2]
      by_cases htw : t = w
      · subst htw
        left
        have hne : s1.sdom t ≠ fa t := by
          intro e
          apply hb
          rw [tr2, e, upd_same]; simp
        rw [upd_ne _ _ hne, tr2, upd_same]; simp
      · rw [h3 t htw]
        rcases I.idOK t ht (by have := hxw t ht htk htw; omega) with h | h
        · left
          have hm : t ∈ s2.tr (s.sdom t) := by
            rw [tr2, h2]
            by_cases hx : s.sdom t = s1.sdom w
            · rw [hx, upd_same]; rw [← hx]; simp [h]
            · rw [upd_ne _ _ hx]; exact h
          have hne : s.sdom t ≠ fa w := fun e => hb (e ▸ hm)
          rw [upd_ne _ _ hne]; exact hm
        · exact Or.inr h

theorem mainLoop_spec (T : DFST E r V dfn fa) {fuel : Nat} (hpos : ∀ x, V x → dfn x ≠ 0) (hf : ∀ x, V x → dfn x < fuel) {preds : Nat → List Nat}
    (hp : ∀ u v, u ∈ preds v ↔ (V u ∧ E u v)) {seq : List Nat} (hseq : ∀ i x, seq[i]? = some x ↔ dfn x = i + 1) (hV : ∀ x, dfn x ≠ 0 → V x)
    (hr : dfn r = 1) : ∀ (k : Nat) (s : LS), 1 ≤ k → k ≤ seq.length → LInv E V fa r dfn k s →
      ∃ s', mainLoop dfn fuel preds fa r (seq.take k).reverse s = some s' ∧ LInv E V fa r dfn 1 s' := by
  intro k
  induction k with
  | zero => intro s h; omega
  | succ k ih =>
    intro s _ hk I
    have hkl : k < seq.length := by omega
    have hw := (hseq k seq[k]).mp (List.getElem?_eq_getElem hkl)
    rw [List.take_succ_eq_append_getElem hkl, List.reverse_append]
    simp only [List.reverse_cons, List.reverse_nil, List.nil_append, List.singleton_append]
    unfold mainLoop
    by_cases h0 : k = 0
    · subst h0
      have : seq[0] = r := T.inj (hV _ (by omega)) (hV r (by omega)) (by omega)
      rw [if_pos this]
      exact ⟨s, by simp [mainLoop], I⟩
    · have hwr : seq[k] ≠ r := fun e => by rw [e] at hw; omega
      rw [if_neg hwr]
      obtain ⟨s1, e1, I1⟩ := step_spec T hpos hf hp (hV _ (by omega)) hwr hw I
      rw [e1]
      exact ih s1 (by omega) (by omega) I1

theorem finalPass_spec (T : DFST E r V dfn fa) (sdom : Nat → Nat) (hsd : ∀ x, V x → x ≠ r → IsSd E V dfn (sdom x) x)
    {seq : List Nat} (hseq : ∀ i x, seq[i]? = some x ↔ dfn x = i + 1) (hV : ∀ x, dfn x ≠ 0 → V x) :
    ∀ (j i : Nat) (idom : Nat → Nat), seq.length - i = j → i ≤ seq.length →
      (∀ x, V x → x ≠ r → dfn x ≤ i → ImmDom E r (idom x) x) → (∀ x, V x → x ≠ r → i < dfn x → Rel E V fa r dfn x (idom x)) →
      ∀ x, V x → x ≠ r → dfn x ≤ seq.length → ImmDom E r (finalPass r sdom (seq.drop i) idom x) x := by
  intro j
  induction j with
  | zero =>
    intro i idom hj hi h1 _ x hx hr hl
    rw [List.drop_eq_nil_of_le (by omega)]
    exact h1 x hx hr (by omega)
  | succ j ih =>
    intro i idom hj hi h1 h2
    have hil : i < seq.length := by omega
    have hb := (hseq i seq[i]).mp (List.getElem?_eq_getElem hil)
    have hbV : V seq[i] := hV _ (by omega)
    rw [List.drop_eq_getElem_cons hil]
    generalize hbe : seq[i] = b at *
    unfold finalPass
    have hsplit : ∀ x, V x → dfn x ≤ i + 1 → dfn x ≤ i ∨ x = b := by
      intro x hx h
      rcases Nat.lt_or_ge i (dfn x) with h' | h'
      · exact Or.inr (T.inj hx hbV (by omega))
      · exact Or.inl h'
    by_cases hbr : b = r
    · rw [if_pos hbr]
      refine ih (i + 1) idom (by omega) (by omega) ?_ (fun x a b c => h2 x a b (by omega))
      intro x hx hr h
      rcases hsplit x hx h with h' | h'
      · exact h1 x hx hr h'
      · exact absurd (h'.trans hbr) hr
    · rw [if_neg hbr]
      obtain ⟨s, hs, hcase⟩ := h2 b hbV hbr (by omega)
      have hss := T.isSd_unique hs (hsd b hbV hbr)
      subst hss
      rcases hcase with ⟨e, H⟩ | ⟨d1, d2, d3, sd, hsd', hlt, H⟩
      · rw [if_neg (by rw [e]; simp)]
        refine ih (i + 1) idom (by omega) (by omega) ?_ (fun x a b c => h2 x a b (by omega))
        intro x hx hr h
        rcases hsplit x hx h with h' | rfl
        · exact h1 x hx hr h'
        · rw [e]; exact T.imm_of_sd hx hr hs H (fun y hy hyr => T.sd_exists hy hyr)
      · rw [if_pos d2]
        have hdne : idom b ≠ b := by
          intro e
          rw [e] at hsd'
          have := T.isSd_unique hsd' hs
          rw [this] at hlt; omega
        have hdlt := T.anc_lt d3 hdne
        have hdr : idom b ≠ r := fun e => by
          rw [e] at d1 d2
          exact d2 (T.anc_antisymm d1 (T.root_le (T.V_left d1))).symm
        refine ih (i + 1) _ (by omega) (by omega) ?_ ?_
        · intro x hx hr h
          rcases hsplit x hx h with h' | rfl
          · rw [upd_ne _ _ (fun e => by subst e; omega)]; exact h1 x hx hr h'
          · rw [upd_same]
            exact T.imm_of_min hx hr hs d1 d2 d3 hsd' hlt H (fun y hy hyr => T.sd_exists hy hyr) (h1 _ (T.V_left d3) hdr (by omega))
        · intro x hx hr h
          rw [upd_ne _ _ (fun e => by subst e; omega)]; exact h2 x hx hr (by omega)

end lt

/-- the phases together -/
theorem idoms_spec (ord : Nat → List Nat → List Nat) (hord : ∀ u l, (ord u l).Perm l) {n : Nat} {succ : Nat → List Nat} {r : Nat}
    (hv : ∀ u v, v ∈ succ u → v < n) (hr : r < n) :
    ∃ c idom, idoms ord n succ r = some (c.dfseq, idom) ∧ DfsOK succ r c ∧ ∀ x, Vis c x → x ≠ r → ImmDom (Edge succ) r (idom x) x := by
  obtain ⟨c, e, D⟩ := color_ok hv hr
  have T := D.tree
  have hpos : ∀ x, Vis c x → c.dfn x ≠ 0 := fun x h => h
  have hf : ∀ x, Vis c x → c.dfn x < n + 1 := fun x _ => by
    have := D.len x; have := D.lenle n hv hr; omega
  have hp : ∀ u v, u ∈ ord v (c.g v) ↔ (Vis c u ∧ Edge succ u v) := fun u v => by rw [(hord v _).mem_iff]; exact D.preds u v
  have hr1 : c.dfn r = 1 := by
    have h0 : 0 < c.dfseq.length := by have := D.len r; have := hpos r T.root; omega
    have h1 := (D.seq 0 c.dfseq[0]).mp (List.getElem?_eq_getElem h0)
    have := T.root_le (b := c.dfseq[0]) (by unfold Vis; omega)
    have := hpos r T.root
    omega
  have hlen1 : 1 ≤ c.dfseq.length := by have := D.len r; omega
  have I0 : LInv (Edge succ) (Vis c) c.fa r c.dfn c.dfseq.length initLS := by
    have hno : ∀ x, ¬ c.dfseq.length < c.dfn x := fun x => by have := D.len x; omega
    exact ⟨⟨fun _ _ _ => ⟨rfl, rfl⟩, fun x _ h => absurd h (hno x), fun x _ h => absurd h (hno x)⟩, fun x _ h => absurd h (hno x), fun _ _ _ => rfl,
      fun x t h => by simp [initLS] at h, fun x _ h => absurd h (hno x)⟩
  obtain ⟨s, e2, I⟩ := mainLoop_spec T hpos hf hp D.seq (fun x h => h) hr1 c.dfseq.length initLS hlen1 (Nat.le_refl _) I0
  rw [List.take_length] at e2
  refine ⟨c, finalPass r s.sdom c.dfseq s.idom, ?_, D, ?_⟩
  · unfold idoms
    rw [e]
    dsimp only
    rw [e2]
  · intro x hx hxr
    have hgt : ∀ y, Vis c y → y ≠ r → 1 < c.dfn y := by
      intro y hy hyr
      have := hpos y hy
      by_contra h
      exact hyr (T.inj hy T.root (by omega))
    have hrel : ∀ y, Vis c y → y ≠ r → Rel (Edge succ) (Vis c) c.fa r c.dfn y (s.idom y) := by
      intro y hy hyr
      rcases I.idOK y hy (hgt y hy hyr) with h | h
      · obtain ⟨_, _, _, _, c', c1, c2, _, _, c5⟩ := I.trOK _ y h
        exact absurd c5 (by have := hgt c' c1 c2; omega)
      · exact h
    have := finalPass_spec T s.sdom (fun y hy hyr => I.sdP y hy (hgt y hy hyr)) D.seq (fun x h => h) c.dfseq.length 0 s.idom (by omega) (by omega)
      (fun y hy _ h => absurd h (by have := hpos y hy; omega)) (fun y hy hyr _ => hrel y hy hyr) x hx hxr (D.len x)
    rwa [List.drop_zero] at this

end Cmmc.Dom
