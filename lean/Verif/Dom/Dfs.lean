import Verif.Dom.Model
import Verif.Dom.Theory
import Verif.CallGraph.Proof
import Mathlib.Data.List.Nodup
/-! # The first phase builds a depth-first spanning tree -/
namespace Cmmc.Dom
open Cmmc.SCC (upd)
open Relation

/-- edge relation of a successor function -/
def Edge (succ : Nat → List Nat) (u v : Nat) : Prop := v ∈ succ u

/-- visited -/
def Vis (s : CS) (x : Nat) : Prop := s.dfn x ≠ 0

theorem upd_same {α : Type} (f : Nat → α) (i : Nat) (v : α) : upd f i v i = v := by simp [upd]
theorem upd_ne {α : Type} (f : Nat → α) {i j : Nat} (v : α) (h : j ≠ i) : upd f i v j = f j := by simp [upd, h]

/-- tree ancestors in a state -/
abbrev SAnc (r : Nat) (s : CS) : Nat → Nat → Prop := Anc (Vis s) s.fa r

structure Base (succ : Nat → List Nat) (r : Nat) (s : CS) : Prop where
  inj : ∀ {a b}, Vis s a → Vis s b → s.dfn a = s.dfn b → a = b
  le : ∀ x, s.dfn x ≤ s.cnt
  seq : s.dfseq.length = s.cnt
  seqmem : ∀ i x, s.dfseq[i]? = some x ↔ (s.dfn x = i + 1)
  fa_V : ∀ {b}, Vis s b → b ≠ r → Vis s (s.fa b) ∧ Edge succ (s.fa b) b ∧ s.dfn (s.fa b) < s.dfn b
  interval : ∀ {m x y}, SAnc r s m x → Vis s y → s.dfn m ≤ s.dfn y → s.dfn y ≤ s.dfn x → SAnc r s m y
  gsub : ∀ {v u}, u ∈ s.g v → Vis s u ∧ Edge succ u v
  gnodup : ∀ v, (s.g v).Nodup

/-- everything numbered at or above an ancestor of `c` is a descendant of that ancestor -/
def Act (r : Nat) (s : CS) (c : Nat) : Prop := ∀ m, SAnc r s m c → ∀ y, Vis s y → s.dfn m ≤ s.dfn y → SAnc r s m y

/-- all edges of a finished vertex -/
def EdgeOK (succ : Nat → List Nat) (r : Nat) (s : CS) (u : Nat) : Prop :=
  ∀ v ∈ succ u, Vis s v ∧ u ∈ s.g v ∧ (s.dfn u ≤ s.dfn v → SAnc r s u v)

structure Ext (s s' : CS) : Prop where
  dfn : ∀ x, Vis s x → s'.dfn x = s.dfn x
  fa : ∀ x, Vis s x → s'.fa x = s.fa x
  g : ∀ v u, u ∈ s.g v → u ∈ s'.g v

theorem Ext.vis {s s' : CS} (e : Ext s s') {x : Nat} (h : Vis s x) : Vis s' x := by
  unfold Vis at *; rw [e.dfn x h]; exact h

theorem Ext.refl (s : CS) : Ext s s := ⟨fun _ _ => rfl, fun _ _ => rfl, fun _ _ h => h⟩

theorem Ext.trans {a b c : CS} (h1 : Ext a b) (h2 : Ext b c) : Ext a c :=
  ⟨fun x h => by rw [h2.dfn x (h1.vis h), h1.dfn x h], fun x h => by rw [h2.fa x (h1.vis h), h1.fa x h],
    fun v u h => h2.g v u (h1.g v u h)⟩

theorem Ext.anc {r : Nat} {s s' : CS} (e : Ext s s') {a b : Nat} (h : SAnc r s a b) : SAnc r s' a b := by
  induction h with
  | refl h => exact .refl (e.vis h)
  | @step b hb hr _ ih => exact .step (e.vis hb) hr (by rw [e.fa b hb]; exact ih)

theorem anc_V_right {r : Nat} {s : CS} {a b : Nat} (h : SAnc r s a b) : Vis s b := by
  cases h with
  | refl h => exact h
  | step h _ _ => exact h

theorem anc_V_left {r : Nat} {s : CS} {a b : Nat} (h : SAnc r s a b) : Vis s a := by
  induction h with
  | refl h => exact h
  | step _ _ _ ih => exact ih

/-- ancestors of an old vertex are unchanged by extension -/
theorem Ext.anc_back {succ : Nat → List Nat} {r : Nat} {s s' : CS} (B : Base succ r s) (e : Ext s s') {a b : Nat} (hb : Vis s b)
    (h : SAnc r s' a b) : SAnc r s a b := by
  induction h with
  | refl _ => exact .refl hb
  | @step b _ hr _ ih =>
    have hf := B.fa_V hb hr
    rw [e.fa b hb] at ih
    exact .step hb hr (ih hf.1)

theorem Ext.edgeOK {succ : Nat → List Nat} {r : Nat} {s s' : CS} (e : Ext s s') {u : Nat} (hu : Vis s u) (h : EdgeOK succ r s u) :
    EdgeOK succ r s' u := by
  intro v hv
  obtain ⟨h1, h2, h3⟩ := h v hv
  refine ⟨e.vis h1, e.g _ _ h2, fun hle => e.anc (h3 ?_)⟩
  rw [e.dfn u hu, e.dfn v h1] at hle; exact hle

/-! ### recording a predecessor -/

theorem mem_insertNew {l : List Nat} {x y : Nat} : y ∈ insertNew l x ↔ y ∈ l ∨ y = x := by
  unfold insertNew
  split
  · constructor
    · exact Or.inl
    · rintro (h | rfl) <;> assumption
  · simp

theorem nodup_insertNew {l : List Nat} {x : Nat} (h : l.Nodup) : (insertNew l x).Nodup := by
  unfold insertNew
  split
  · exact h
  · rename_i hx
    rw [List.nodup_append]
    exact ⟨h, by simp, fun a ha b hb e => by simp only [List.mem_singleton] at hb; subst hb; exact hx (e ▸ ha)⟩

def addPred (v cur : Nat) (s : CS) : CS := { s with g := upd s.g v (insertNew (s.g v) cur) }

theorem addPred_ext (v cur : Nat) (s : CS) : Ext s (addPred v cur s) := by
  refine ⟨fun _ _ => rfl, fun _ _ => rfl, fun x u h => ?_⟩
  show u ∈ upd s.g v _ x
  by_cases hx : x = v
  · subst hx; rw [upd_same, mem_insertNew]; exact Or.inl h
  · rw [upd_ne _ _ hx]; exact h

theorem addPred_base {succ : Nat → List Nat} {r : Nat} {s : CS} (B : Base succ r s) {v cur : Nat} (hc : Vis s cur) (hv : v ∈ succ cur) :
    Base succ r (addPred v cur s) := by
  refine ⟨B.inj, B.le, B.seq, B.seqmem, B.fa_V, B.interval, ?_, ?_⟩
  · intro x u h
    change u ∈ upd s.g v _ x at h
    by_cases hx : x = v
    · subst hx
      rw [upd_same, mem_insertNew] at h
      rcases h with h | rfl
      · exact B.gsub h
      · exact ⟨hc, hv⟩
    · rw [upd_ne _ _ hx] at h; exact B.gsub h
  · intro x
    show (upd s.g v _ x).Nodup
    by_cases hx : x = v
    · subst hx; rw [upd_same]; exact nodup_insertNew (B.gnodup _)
    · rw [upd_ne _ _ hx]; exact B.gnodup x

/-! ### entering a vertex -/

theorem enter_vis {cur : Nat} {p : Option Nat} {s : CS} {x : Nat} : Vis (enterC cur p s) x ↔ Vis s x ∨ x = cur := by
  unfold Vis enterC
  show upd s.dfn cur _ x ≠ 0 ↔ _
  by_cases h : x = cur
  · subst h; simp [upd_same]
  · rw [upd_ne _ _ h]; simp [h]

theorem enter_ext {cur : Nat} {p : Option Nat} {s : CS} (h : ¬ Vis s cur) : Ext s (enterC cur p s) := by
  refine ⟨fun x hx => ?_, fun x hx => ?_, fun _ _ h => h⟩
  · exact upd_ne _ _ (fun e => h (e ▸ hx))
  · cases p with
    | none => rfl
    | some p => exact upd_ne _ _ (fun e => h (e ▸ hx))

/-- what entering an unvisited vertex requires -/
def PreE (succ : Nat → List Nat) (r cur : Nat) (p : Option Nat) (s : CS) : Prop :=
  match p with
  | none => cur = r ∧ ∀ x, ¬ Vis s x
  | some p => cur ≠ r ∧ Vis s p ∧ Edge succ p cur ∧ Act r s p

theorem enter_base {succ : Nat → List Nat} {r : Nat} {s : CS} (B : Base succ r s) {cur : Nat} {p : Option Nat} (h : ¬ Vis s cur)
    (hp : PreE succ r cur p s) : Base succ r (enterC cur p s) := by
  have E := enter_ext (p := p) h
  have hcur : (enterC cur p s).dfn cur = s.cnt + 1 := upd_same _ _ _
  have hlt : ∀ x, Vis s x → (enterC cur p s).dfn x ≤ s.cnt := fun x hx => by rw [E.dfn x hx]; exact B.le x
  refine ⟨?_, ?_, ?_, ?_, ?_, ?_, ?_, ?_⟩
  · intro a b ha hb hab
    rw [enter_vis] at ha hb
    rcases ha with ha | rfl
    · rcases hb with hb | rfl
      · rw [E.dfn a ha, E.dfn b hb] at hab; exact B.inj ha hb hab
      · have := hlt a ha; omega
    · rcases hb with hb | rfl
      · have := hlt b hb; omega
      · rfl
  · intro x
    show upd s.dfn cur _ x ≤ s.cnt + 1
    by_cases hx : x = cur
    · subst hx; rw [upd_same]; omega
    · rw [upd_ne _ _ hx]; have := B.le x; omega
  · show (s.dfseq ++ [cur]).length = s.cnt + 1
    simp [B.seq]
  · intro i x
    show (s.dfseq ++ [cur])[i]? = some x ↔ upd s.dfn cur _ x = i + 1
    have hnc : s.dfn cur = 0 := Classical.not_not.mp h
    rcases Nat.lt_trichotomy i s.cnt with hi | hi | hi
    · rw [List.getElem?_append_left (by rw [B.seq]; exact hi), B.seqmem]
      by_cases hx : x = cur
      · subst hx; rw [upd_same]; constructor
        · intro h'; rw [hnc] at h'; omega
        · intro h'; omega
      · rw [upd_ne _ _ hx]
    · subst hi
      rw [List.getElem?_append_right (Nat.le_of_eq B.seq)]
      simp only [B.seq, Nat.sub_self, List.getElem?_cons_zero, Option.some.injEq]
      by_cases hx : x = cur
      · subst hx; simp [upd_same]
      · rw [upd_ne _ _ hx]
        have := B.le x
        constructor
        · intro h'; exact absurd h'.symm hx
        · intro h'; omega
    · rw [List.getElem?_eq_none (by simp [B.seq]; omega)]
      by_cases hx : x = cur
      · subst hx; rw [upd_same]; simp; omega
      · rw [upd_ne _ _ hx]; have := B.le x; simp; omega
  · intro b hb hr
    rw [enter_vis] at hb
    by_cases hbc : b = cur
    · subst hbc
      cases p with
      | none => exact absurd hp.1 hr
      | some p =>
        have hf : (enterC b (some p) s).fa b = p := upd_same _ _ _
        rw [hf]
        refine ⟨E.vis hp.2.1, hp.2.2.1, ?_⟩
        have := hlt p hp.2.1
        omega
    · have hb := hb.resolve_right hbc
      obtain ⟨h1, h2, h3⟩ := B.fa_V hb hr
      rw [E.fa b hb]
      exact ⟨E.vis h1, h2, by rw [E.dfn _ h1, E.dfn _ hb]; exact h3⟩
  · intro m x y hmx hy h1 h2
    rw [enter_vis] at hy
    have hx := anc_V_right hmx
    rw [enter_vis] at hx
    by_cases hyc : y = cur
    · subst hyc
      by_cases hxc : x = y
      · subst hxc; exact hmx
      · have hx := hx.resolve_right hxc
        have := hlt x hx; omega
    · replace hy := hy.resolve_right hyc
      by_cases hxc : x = cur
      · subst hxc
        by_cases hmx' : m = x
        · subst hmx'; have := hlt y hy; omega
        · cases hmx with
          | refl _ => exact absurd rfl hmx'
          | step _ hr hm =>
            cases p with
            | none => exact absurd hp.1 hr
            | some p =>
              have hf : (enterC x (some p) s).fa x = p := upd_same _ _ _
              rw [hf] at hm
              have hm' := E.anc_back B hp.2.1 hm
              refine E.anc (hp.2.2.2 m hm' y hy ?_)
              rw [E.dfn m (anc_V_left hm'), E.dfn y hy] at h1; exact h1
      · have hx := hx.resolve_right hxc
        have hm' := E.anc_back B hx hmx
        refine E.anc (B.interval hm' hy ?_ ?_)
        · rw [E.dfn m (anc_V_left hm'), E.dfn y hy] at h1; exact h1
        · rw [E.dfn x hx, E.dfn y hy] at h2; exact h2
  · intro v u hu
    obtain ⟨h1, h2⟩ := B.gsub (v := v) (u := u) hu
    exact ⟨E.vis h1, h2⟩
  · exact B.gnodup

theorem enter_act {succ : Nat → List Nat} {r : Nat} {s : CS} (B : Base succ r s) {cur : Nat} {p : Option Nat} (h : ¬ Vis s cur)
    (hp : PreE succ r cur p s) : Act r (enterC cur p s) cur := by
  have E := enter_ext (p := p) h
  have hlt : ∀ x, Vis s x → (enterC cur p s).dfn x ≤ s.cnt := fun x hx => by rw [E.dfn x hx]; exact B.le x
  have hcur : (enterC cur p s).dfn cur = s.cnt + 1 := upd_same _ _ _
  intro m hm y hy hle
  by_cases hyc : y = cur
  · subst hyc; exact hm
  · replace hy := (enter_vis.mp hy).resolve_right hyc
    cases hm with
    | refl _ => have := hlt y hy; omega
    | step _ hr hm =>
      cases p with
      | none => exact absurd hp.1 hr
      | some p =>
        have hf : (enterC cur (some p) s).fa cur = p := upd_same _ _ _
        rw [hf] at hm
        have hm' := E.anc_back B hp.2.1 hm
        refine E.anc (hp.2.2.2 m hm' y hy ?_)
        rw [E.dfn m (anc_V_left hm'), E.dfn y hy] at hle; exact hle

/-! ### the recursion -/

/-- number of unvisited vertices below `n` -/
def unvis (n : Nat) (s : CS) : Nat := ((List.range n).filter (fun x => s.dfn x = 0)).length

theorem unvis_mono {n : Nat} {s s' : CS} (e : Ext s s') : unvis n s' ≤ unvis n s := by
  unfold unvis
  apply List.Sublist.length_le
  apply List.monotone_filter_right
  intro x hx
  simp only [decide_eq_true_eq] at *
  by_contra h
  have : Vis s x := h
  rw [e.dfn x this] at hx; exact h hx

theorem unvis_enter {n : Nat} {s : CS} {cur : Nat} {p : Option Nat} (hn : cur < n) (h : ¬ Vis s cur) :
    unvis n (enterC cur p s) + 1 = unvis n s := by
  unfold unvis
  symm
  apply CallGraph.count_single hn
  · intro x hx
    show _ = decide (upd s.dfn cur _ x = 0)
    rw [upd_ne _ _ hx]
  · simpa [Vis] using h
  · show decide (upd s.dfn cur _ cur = 0) = false
    rw [upd_same]; simp

/-- what a call of `color` guarantees -/
structure Post (succ : Nat → List Nat) (r : Nat) (s s' : CS) : Prop where
  base : Base succ r s'
  ext : Ext s s'
  new : ∀ x, Vis s' x → ¬ Vis s x → EdgeOK succ r s' x

def Pre (succ : Nat → List Nat) (r cur : Nat) (p : Option Nat) (s : CS) : Prop :=
  match p with
  | none => cur = r ∧ ∀ x, ¬ Vis s x
  | some p => Vis s r ∧ Vis s p ∧ Edge succ p cur ∧ Act r s p

theorem colorEdges_spec {succ : Nat → List Nat} {r n f : Nat} (hv : ∀ u v, v ∈ succ u → v < n)
    (ih : ∀ cur p s, cur < n → Base succ r s → Pre succ r cur p s → unvis n s < f →
      ∃ s', color succ f cur p s = some s' ∧ Post succ r s s' ∧ Vis s' cur ∧ (∀ q, p = some q → Act r s' q)) (cur : Nat) :
    ∀ (vs : List Nat) (s : CS), (∀ v ∈ vs, v ∈ succ cur) → Base succ r s → Vis s r → Vis s cur → Act r s cur → unvis n s < f →
      ∃ s', colorEdges (color succ f) cur vs s = some s' ∧ Post succ r s s' ∧ Act r s' cur ∧
        ∀ v ∈ vs, Vis s' v ∧ cur ∈ s'.g v := by
  intro vs
  induction vs with
  | nil =>
    intro s _ B _ _ A _
    exact ⟨s, rfl, ⟨B, Ext.refl s, fun x h1 h2 => absurd h1 h2⟩, A, by simp⟩
  | cons v vs ihv =>
    intro s hvs B hr hc A hu
    have hvs' : v ∈ succ cur := hvs v (by simp)
    have B1 := addPred_base B hc hvs'
    have e1 := addPred_ext v cur s
    have A1 : Act r (addPred v cur s) cur := A
    obtain ⟨s1, eq1, P1, hv1, hA1⟩ := ih v (some cur) (addPred v cur s) (hv cur v hvs') B1 ⟨hr, hc, hvs', A1⟩ hu
    have hA1 := hA1 cur rfl
    obtain ⟨s2, eq2, P2, hA2, h2⟩ := ihv s1 (fun w hw => hvs w (by simp [hw])) P1.base (P1.ext.vis hr) (P1.ext.vis hc) hA1
      (Nat.lt_of_le_of_lt (unvis_mono P1.ext) hu)
    refine ⟨s2, ?_, ⟨P2.base, (e1.trans P1.ext).trans P2.ext, ?_⟩, hA2, ?_⟩
    · unfold colorEdges
      show (match color succ f v (some cur) (addPred v cur s) with | none => none | some s' => colorEdges (color succ f) cur vs s') = _
      rw [eq1]; exact eq2
    · intro x hx hn
      by_cases hx1 : Vis s1 x
      · exact P2.ext.edgeOK hx1 (P1.new x hx1 hn)
      · exact P2.new x hx hx1
    · intro w hw
      rcases List.mem_cons.mp hw with rfl | hw
      · refine ⟨P2.ext.vis hv1, P2.ext.g _ _ (P1.ext.g _ _ ?_)⟩
        show cur ∈ upd s.g w _ w
        rw [upd_same, mem_insertNew]; exact Or.inr rfl
      · exact h2 w hw

theorem color_spec {succ : Nat → List Nat} {r n : Nat} (hv : ∀ u v, v ∈ succ u → v < n) : ∀ (f : Nat) (cur : Nat) (p : Option Nat) (s : CS),
    cur < n → Base succ r s → Pre succ r cur p s → unvis n s < f →
      ∃ s', color succ f cur p s = some s' ∧ Post succ r s s' ∧ Vis s' cur ∧ (∀ q, p = some q → Act r s' q) := by
  intro f
  induction f with
  | zero => intro cur p s _ _ _ h; omega
  | succ f ih =>
    intro cur p s hc B hp hu
    unfold color
    by_cases hvis : Vis s cur
    · rw [if_pos (show s.dfn cur ≠ 0 from hvis)]
      refine ⟨s, rfl, ⟨B, Ext.refl s, fun x h1 h2 => absurd h1 h2⟩, hvis, ?_⟩
      intro q hq; subst hq; exact hp.2.2.2
    · rw [if_neg (show ¬ s.dfn cur ≠ 0 from hvis)]
      have hp' : PreE succ r cur p s := by
        cases p with
        | none => exact hp
        | some p => exact ⟨fun e => hvis (e ▸ hp.1), hp.2⟩
      have B1 := enter_base B hvis hp'
      have A1 := enter_act B hvis hp'
      have e1 := enter_ext (p := p) hvis
      have hcv : Vis (enterC cur p s) cur := enter_vis.mpr (Or.inr rfl)
      have hrv : Vis (enterC cur p s) r := by
        cases p with
        | none => rw [← hp.1]; exact hcv
        | some p => exact e1.vis hp.1
      have := unvis_enter (p := p) hc hvis
      obtain ⟨s', eq, P, A, h⟩ := colorEdges_spec hv ih cur (succ cur) (enterC cur p s) (fun v h => h) B1 hrv hcv A1 (by omega)
      refine ⟨s', eq, ⟨P.base, e1.trans P.ext, ?_⟩, P.ext.vis hcv, ?_⟩
      · intro x hx hn
        by_cases hxc : x = cur
        · subst hxc
          intro v hv'
          obtain ⟨h1, h2⟩ := h v hv'
          exact ⟨h1, h2, fun hle => A x (.refl hx) v h1 hle⟩
        · exact P.new x hx (fun h => hn ((enter_vis.mp h).resolve_right hxc))
      · intro q hq
        subst hq
        intro m hm y hy hle
        refine A m ?_ y hy hle
        refine .step (P.ext.vis hcv) (fun e => hvis (e ▸ hp.1)) ?_
        have : s'.fa cur = q := by
          rw [P.ext.fa cur hcv]; exact upd_same _ _ _
        rw [this]; exact hm

theorem init_base (succ : Nat → List Nat) (r : Nat) : Base succ r initCS := by
  have hv : ∀ x, ¬ Vis initCS x := fun x h => h rfl
  refine ⟨fun h => absurd h (hv _), fun x => Nat.le_refl _, rfl, ?_, fun h => absurd h (hv _), fun _ h => absurd h (hv _),
    fun h => absurd h (by simp [initCS]), fun v => by simp [initCS]⟩
  intro i x
  simp [initCS]

/-- the facts about the first phase used later -/
structure DfsOK (succ : Nat → List Nat) (r : Nat) (c : CS) : Prop where
  tree : DFST (Edge succ) r (Vis c) c.dfn c.fa
  reach : ∀ x, Vis c x → Reachable (Edge succ) r x
  preds : ∀ u v, u ∈ c.g v ↔ (Vis c u ∧ Edge succ u v)
  gnodup : ∀ v, (c.g v).Nodup
  seq : ∀ i x, c.dfseq[i]? = some x ↔ c.dfn x = i + 1
  len : ∀ x, c.dfn x ≤ c.dfseq.length
  lenle : ∀ n, (∀ u v, v ∈ succ u → v < n) → r < n → c.dfseq.length ≤ n

theorem path_snoc {α : Type} {E : α → α → Prop} {a b c : α} {p : List α} (h : Path E a b p) (e : E b c) : Path E a c (p ++ [c]) := by
  induction h with
  | single a => exact .cons e (.single c)
  | cons e' _ ih => exact .cons e' (ih e)

theorem color_ok {succ : Nat → List Nat} {r n : Nat} (hv : ∀ u v, v ∈ succ u → v < n) (hr : r < n) :
    ∃ c, color succ (n + 1) r none initCS = some c ∧ DfsOK succ r c := by
  have hun : unvis n initCS < n + 1 := by
    unfold unvis
    have := List.length_filter_le (fun x => decide (initCS.dfn x = 0)) (List.range n)
    simp only [List.length_range] at this
    omega
  obtain ⟨c, e, P, hrv, _⟩ := color_spec hv (n + 1) r none initCS hr (init_base succ r) ⟨rfl, fun x h => h rfl⟩ hun
  have ok : ∀ x, Vis c x → EdgeOK succ r c x := fun x hx => P.new x hx (fun h => h rfl)
  have B := P.base
  have hlen : ∀ x, c.dfn x ≤ c.dfseq.length := fun x => by rw [B.seq]; exact B.le x
  have T : DFST (Edge succ) r (Vis c) c.dfn c.fa := by
    refine ⟨hrv, fun ha e => (ok _ ha _ e).1, B.inj, fun h h' => (B.fa_V h h').1, fun h h' => (B.fa_V h h').2.1,
      fun h h' => (B.fa_V h h').2.2, B.interval, ?_⟩
    intro u v hu e hlt
    exact (ok u hu v e).2.2 (by omega)
  have reach : ∀ x, Vis c x → Reachable (Edge succ) r x := by
    intro x hx
    have := T.root_anc hx
    induction this with
    | refl _ => exact ⟨_, .single _⟩
    | @step b hb hr _ ih =>
      obtain ⟨p, hp⟩ := ih (T.fa_V hb hr)
      exact ⟨_, path_snoc hp (T.fa_E hb hr)⟩
  refine ⟨c, e, T, reach, ?_, B.gnodup, B.seqmem, hlen, ?_⟩
  · intro u v
    constructor
    · exact B.gsub
    · rintro ⟨h1, h2⟩; exact (ok u h1 v h2).2.1
  · intro n hv hr
    apply CallGraph.nodup_length_le
    · rw [List.nodup_iff_injective_getElem]
      intro i j heq
      have h1 := (B.seqmem i.1 _).mp (List.getElem?_eq_getElem i.2)
      have h2 := (B.seqmem j.1 _).mp (List.getElem?_eq_getElem j.2)
      dsimp only at heq
      rw [heq] at h1
      exact Fin.ext (by omega)
    · intro x hx
      obtain ⟨i, hi⟩ := List.mem_iff_getElem?.mp hx
      have hxv : Vis c x := by unfold Vis; rw [(B.seqmem i x).mp hi]; omega
      by_cases h : x = r
      · subst h; exact hr
      · exact hv _ _ (T.fa_E hxv h)

end Cmmc.Dom
