import Verif.SSA.BlockElim
/-!
# C78: InstReorder (cmmc/Transforms/Misc/InstReorder.cpp:45-177, 288-336): the order

Instructions of a block are nodes 0, 1, ... (`instId`); the schedule is made bottom-up with a priority queue. Priorities (l.87-143, sums of doubles) decide
which node is taken from the queue; here any function `pick` decides.
-/
namespace Cmmc.SSA

/-- what the pass wants to know of an instruction: it is not `isMovableExpr(inst, false)` (l.64); it is a phi or an alloc (l.70); positions of its operands in the block (l.77-80) -/
structure RNode where
  locked : Bool
  pin : Bool
  ops : List Nat

/-- the last node before `k` with a property: `latesetLocked`, `latestPhiOrAlloc` when node `k` is visited -/
def lastBefore (p : RNode → Bool) (ns : List RNode) (k : Nat) : Option Nat := (List.range k).reverse.find? (fun j => match ns[j]? with | some n => p n | none => false)

/-- the `addDep` calls for node `k` (l.60-85) -/
def reorderDeps (ns : List RNode) (k : Nat) : List Nat :=
  match ns[k]? with
  | none => []
  | some n =>
    ((if n.locked then (lastBefore RNode.locked ns k).toList else []) ++ (if n.pin then [] else (lastBefore RNode.pin ns k).toList ++ n.ops)).dedup

/-- `degrees` for the dependencies `pred` of `n` nodes -/
def degreeOf (n : Nat) (pred : Nat → List Nat) (v : Nat) : Nat := (List.range n).countP (fun u => (pred u).contains v)

/-- l.151-155: the terminator waits for everything nobody waits for -/
def reorderPred (ns : List RNode) (u : Nat) : List Nat :=
  if u + 1 = ns.length then reorderDeps ns u ++ (List.range u).filter (fun v => degreeOf ns.length (reorderDeps ns) v == 0) else reorderDeps ns u

/-- the loop over `pred[u]` (l.164-167) -/
def reorderRelax (deg : Nat → Nat) : List Nat → List Nat → (Nat → Nat) × List Nat
  | [], q => (deg, q)
  | v :: vs, q =>
    let deg' := fun x => if x = v then deg v - 1 else deg x
    reorderRelax deg' vs (if deg v - 1 = 0 then q ++ [v] else q)

/-- l.158-168 -/
def reorderLoop (pick : List Nat → Nat) (pred : Nat → List Nat) : Nat → (Nat → Nat) → List Nat → List Nat → List Nat
  | 0, _, _, out => out
  | _, _, [], out => out
  | fuel + 1, deg, q, out =>
    let u := q.getD (pick q % q.length) 0
    let r := reorderRelax deg (pred u) (q.erase u)
    reorderLoop pick pred fuel r.1 r.2 (out ++ [u])

/-- the order (l.146-171) -/
def reorderNodes (pick : List Nat → Nat) (ns : List RNode) : List Nat :=
  (reorderLoop pick (reorderPred ns) ns.length (degreeOf ns.length (reorderPred ns)) [ns.length - 1] []).reverse

/-! ## every node once, after all nodes it depends on -/

theorem lastBefore_lt {p : RNode → Bool} {ns : List RNode} {k j : Nat} (h : lastBefore p ns k = some j) : j < k ∧ ∃ n, ns[j]? = some n ∧ p n = true := by
  have h1 := List.mem_of_find?_eq_some h
  have h2 := List.find?_some h
  refine ⟨by simpa using h1, ?_⟩
  cases hn : ns[j]? with
  | none => rw [hn] at h2; simp at h2
  | some n => rw [hn] at h2; exact ⟨n, rfl, h2⟩

/-- dependencies go up -/
structure DepsOk (n : Nat) (pred : Nat → List Nat) : Prop where
  nodup : ∀ u, (pred u).Nodup
  lt : ∀ u v, v ∈ pred u → v < u
  inb : ∀ u, n ≤ u → pred u = []

theorem relax_spec (vs : List Nat) : ∀ (deg : Nat → Nat) (q : List Nat), vs.Nodup → (∀ v ∈ vs, 0 < deg v) →
    (∀ x, (reorderRelax deg vs q).1 x = if x ∈ vs then deg x - 1 else deg x) ∧ (reorderRelax deg vs q).2 = q ++ vs.filter (fun v => deg v - 1 == 0) := by
  induction vs with
  | nil => intro deg q _ _; exact ⟨fun x => by simp [reorderRelax], by simp [reorderRelax]⟩
  | cons v vs ih =>
    intro deg q hn hd
    obtain ⟨hv, hn'⟩ := List.nodup_cons.1 hn
    simp only [reorderRelax]
    have hd' : ∀ x ∈ vs, (if x = v then deg v - 1 else deg x) = deg x := by
      intro x hx
      have : x ≠ v := fun e => hv (e ▸ hx)
      simp [this]
    obtain ⟨h1, h2⟩ := ih (fun x => if x = v then deg v - 1 else deg x) (if deg v - 1 = 0 then q ++ [v] else q) hn' (fun x hx => by rw [hd' x hx]; exact hd x (by simp [hx]))
    refine ⟨?_, ?_⟩
    · intro x
      rw [h1 x]
      by_cases hx : x ∈ vs
      · rw [if_pos hx, if_pos (List.mem_cons_of_mem _ hx), hd' x hx]
      · rw [if_neg hx]
        by_cases hxv : x = v
        · subst hxv; simp
        · simp [hx, hxv]
    · rw [h2]
      have hf : vs.filter (fun x => (if x = v then deg v - 1 else deg x) - 1 == 0) = vs.filter (fun x => deg x - 1 == 0) := by
        apply List.filter_congr
        intro x hx
        rw [hd' x hx]
      rw [hf, List.filter_cons]
      by_cases h0 : deg v - 1 = 0
      · rw [if_pos h0, if_pos (by simpa using h0)]; simp
      · rw [if_neg h0, if_neg (by simpa using h0)]

/-- the state of the loop -/
structure KahnInv (n : Nat) (pred : Nat → List Nat) (deg : Nat → Nat) (q out : List Nat) : Prop where
  degs : ∀ v, deg v = (List.range n).countP (fun u => !(out.contains u) && (pred u).contains v)
  mem : ∀ v, v ∈ q ↔ v < n ∧ v ∉ out ∧ deg v = 0
  qnd : q.Nodup
  ond : out.Nodup
  lt : ∀ v ∈ out, v < n
  topo : ∀ pre u post, out = pre ++ u :: post → ∀ w, w < n → u ∈ pred w → w ∈ pre

theorem countP_remove {n u v : Nat} {pred : Nat → List Nat} {out : List Nat} (hu : u < n) (ho : u ∉ out) :
    (List.range n).countP (fun w => !(out.contains w) && (pred w).contains v) =
      (List.range n).countP (fun w => !((out ++ [u]).contains w) && (pred w).contains v) + if v ∈ pred u then 1 else 0 := by
  have key : ∀ (l : List Nat), l.Nodup → l.countP (fun w => !(out.contains w) && (pred w).contains v) =
      l.countP (fun w => !((out ++ [u]).contains w) && (pred w).contains v) + if u ∈ l ∧ v ∈ pred u then 1 else 0 := by
    intro l
    induction l with
    | nil => intro _; simp
    | cons w l ih =>
      intro hn
      obtain ⟨hw, hn'⟩ := List.nodup_cons.1 hn
      rw [List.countP_cons, List.countP_cons, ih hn']
      by_cases hwu : w = u
      · subst hwu
        by_cases hv : v ∈ pred w
        · simp [hw, hv, ho]
        · simp [hv]
      · have : (u ∈ w :: l ∧ v ∈ pred u) ↔ (u ∈ l ∧ v ∈ pred u) := by simp [Ne.symm hwu]
        have h2 : (!((out ++ [u]).contains w) && (pred w).contains v) = (!(out.contains w) && (pred w).contains v) := by simp [hwu]
        rw [h2]
        simp only [this]
        omega
  rw [key _ List.nodup_range]
  simp [hu]

theorem KahnInv.step {n : Nat} {pred : Nat → List Nat} {deg : Nat → Nat} {q out : List Nat} (hD : DepsOk n pred) (I : KahnInv n pred deg q out) {u : Nat} (hu : u ∈ q) :
    KahnInv n pred (reorderRelax deg (pred u) (q.erase u)).1 (reorderRelax deg (pred u) (q.erase u)).2 (out ++ [u]) := by
  obtain ⟨hun, huo, hu0⟩ := (I.mem u).1 hu
  have hpos : ∀ v ∈ pred u, 0 < deg v := by
    intro v hv
    rw [I.degs, countP_remove hun huo, if_pos hv]
    omega
  obtain ⟨h1, h2⟩ := relax_spec (pred u) deg (q.erase u) (hD.nodup u) hpos
  have hdeg : ∀ v, (reorderRelax deg (pred u) (q.erase u)).1 v = (List.range n).countP (fun w => !((out ++ [u]).contains w) && (pred w).contains v) := by
    intro v
    rw [h1]
    have := I.degs v
    rw [countP_remove hun huo] at this
    split
    · rename_i hv; rw [if_pos hv] at this; omega
    · rename_i hv; rw [if_neg hv] at this; omega
  have hself : u ∉ pred u := fun h => absurd (hD.lt u u h) (by omega)
  refine ⟨hdeg, ?_, ?_, ?_, ?_, ?_⟩
  · intro v
    rw [h2, List.mem_append, I.qnd.mem_erase_iff, List.mem_filter, I.mem, h1]
    constructor
    · rintro (⟨hvu, hvn, hvo, hv0⟩ | ⟨hv, hv0⟩)
      · refine ⟨hvn, by simp [hvo, hvu], ?_⟩
        split <;> omega
      · have hvu : v < u := hD.lt u v hv
        refine ⟨by omega, ?_, ?_⟩
        · intro hm
          rcases List.mem_append.1 hm with hm | hm
          · obtain ⟨pre, post, hsp⟩ := List.append_of_mem hm
            have := I.topo pre v post hsp u hun hv
            exact huo (by rw [hsp]; simp [this])
          · simp at hm; omega
        · rw [if_pos hv]; simpa using hv0
    · rintro ⟨hvn, hvo, hv0⟩
      have hvo1 : v ∉ out := fun h => hvo (by simp [h])
      have hvu : v ≠ u := fun h => hvo (by simp [h])
      by_cases hv : v ∈ pred u
      · rw [if_pos hv] at hv0
        exact .inr ⟨hv, by simpa using hv0⟩
      · rw [if_neg hv] at hv0
        exact .inl ⟨hvu, hvn, hvo1, hv0⟩
  · rw [h2]
    refine List.Nodup.append (I.qnd.erase u) ((hD.nodup u).filter _) ?_
    intro v hv hv'
    have hv1 := List.mem_of_mem_erase hv
    have hv2 := (List.mem_filter.1 hv').1
    have := hpos v hv2
    rw [((I.mem v).1 hv1).2.2] at this
    omega
  · refine List.Nodup.append I.ond (by simp) ?_
    intro v hv hv'
    simp at hv'
    subst hv'
    exact huo hv
  · intro v hv
    rcases List.mem_append.1 hv with hv | hv
    · exact I.lt v hv
    · simp at hv; omega
  · intro pre x post hsp w hw hx
    rcases List.append_eq_append_iff.1 hsp with ⟨a, h3, h4⟩ | ⟨a, h3, h4⟩
    · cases a with
      | nil =>
        simp at h4
        obtain ⟨rfl, rfl⟩ := h4
        by_contra hne
        have h5 := I.degs u
        rw [hu0] at h5
        have h6 := (List.countP_eq_zero.1 h5.symm) w (by simpa using hw)
        simp only [Bool.and_eq_true, Bool.not_eq_true', List.contains_eq_mem, decide_eq_false_iff_not, decide_eq_true_eq, not_and] at h6
        simp at h3
        subst h3
        exact h6 hne hx
      | cons y a => simp at h4
    · cases a with
      | nil =>
        simp at h4
        simp at h3
        obtain ⟨rfl, rfl⟩ := h4
        subst h3
        by_contra hne
        have h5 := I.degs x
        rw [hu0] at h5
        have h6 := (List.countP_eq_zero.1 h5.symm) w (by simpa using hw)
        simp only [Bool.and_eq_true, Bool.not_eq_true', List.contains_eq_mem, decide_eq_false_iff_not, decide_eq_true_eq, not_and] at h6
        exact h6 hne hx
      | cons y a =>
        simp at h4
        obtain ⟨rfl, rfl⟩ := h4
        exact I.topo pre x a h3 w hw hx

/-- when the queue is empty, every node has been taken -/
theorem KahnInv.all {n : Nat} {pred : Nat → List Nat} {deg : Nat → Nat} {out : List Nat} (I : KahnInv n pred deg [] out) (hD : DepsOk n pred) : ∀ v, v < n → v ∈ out := by
  have : ∀ k v, n - v ≤ k → v < n → v ∈ out := by
    intro k
    induction k with
    | zero => intro v h1 h2; omega
    | succ k ih =>
      intro v h1 h2
      by_contra hv
      have h3 : deg v ≠ 0 := fun h => by simpa using (I.mem v).2 ⟨h2, hv, h⟩
      rw [I.degs] at h3
      obtain ⟨u, hu, h4⟩ := List.countP_pos_iff.1 (Nat.pos_of_ne_zero h3)
      simp only [Bool.and_eq_true, Bool.not_eq_true', List.contains_eq_mem, decide_eq_false_iff_not, decide_eq_true_eq] at h4
      have := hD.lt u v h4.2
      exact h4.1 (ih u (by omega) (by simpa using hu))
  exact fun v hv => this _ v (Nat.le_refl _) hv

theorem KahnInv.len {n : Nat} {pred : Nat → List Nat} {deg : Nat → Nat} {q out : List Nat} (I : KahnInv n pred deg q out) : out.length ≤ n := by
  have : out.Subperm (List.range n) := List.subperm_of_subset I.ond (fun v hv => by simpa using I.lt v hv)
  simpa using this.length_le

theorem reorderLoop_ok (pick : List Nat → Nat) {n : Nat} {pred : Nat → List Nat} (hD : DepsOk n pred) : ∀ (fuel : Nat) (deg : Nat → Nat) (q out : List Nat), KahnInv n pred deg q out → n ≤ out.length + fuel →
    ∃ deg', KahnInv n pred deg' [] (reorderLoop pick pred fuel deg q out) ∧ ∃ l, reorderLoop pick pred fuel deg q out = out ++ l := by
  intro fuel
  induction fuel with
  | zero =>
    intro deg q out I hf
    have hq : q = [] := by
      cases q with
      | nil => rfl
      | cons v q =>
        exfalso
        obtain ⟨h1, h2, _⟩ := (I.mem v).1 (by simp)
        have : (v :: out).Subperm (List.range n) := List.subperm_of_subset (List.nodup_cons.2 ⟨h2, I.ond⟩) (fun x hx => by
          rcases List.mem_cons.1 hx with rfl | hx
          · simpa using h1
          · simpa using I.lt x hx)
        have := this.length_le
        simp at this
        omega
    subst hq
    exact ⟨deg, I, [], by simp [reorderLoop]⟩
  | succ fuel ih =>
    intro deg q out I hf
    cases q with
    | nil => exact ⟨deg, I, [], by simp [reorderLoop]⟩
    | cons v q =>
      simp only [reorderLoop]
      have hm : (v :: q).getD (pick (v :: q) % (v :: q).length) 0 ∈ v :: q := by
        have hlt : pick (v :: q) % (v :: q).length < (v :: q).length := Nat.mod_lt _ (by simp)
        rw [List.getD_eq_getElem?_getD, List.getElem?_eq_getElem hlt]
        exact List.getElem_mem hlt
      obtain ⟨deg', h1, l, h2⟩ := ih _ _ _ (I.step hD hm) (by simp; omega)
      exact ⟨deg', h1, [(v :: q).getD (pick (v :: q) % (v :: q).length) 0] ++ l, by rw [h2, List.append_assoc]⟩

/-- the operands of the nodes are earlier nodes -/
def OpsUp (ns : List RNode) : Prop := ∀ (k : Nat) (n : RNode), ns[k]? = some n → ∀ j ∈ n.ops, j < k

theorem reorderDeps_lt {ns : List RNode} (h : OpsUp ns) {u v : Nat} (hv : v ∈ reorderDeps ns u) : v < u ∧ u < ns.length := by
  unfold reorderDeps at hv
  split at hv
  · simp at hv
  · rename_i n hn
    refine ⟨?_, (List.getElem?_eq_some_iff.1 hn).1⟩
    rw [List.mem_dedup, List.mem_append] at hv
    rcases hv with hv | hv
    · split at hv
      · exact (lastBefore_lt (by simpa using hv)).1
      · simp at hv
    · split at hv
      · simp at hv
      · rcases List.mem_append.1 hv with hv | hv
        · exact (lastBefore_lt (by simpa using hv)).1
        · exact h u n hn v hv

theorem reorderPred_deps {ns : List RNode} {u v : Nat} (hv : v ∈ reorderDeps ns u) : v ∈ reorderPred ns u := by
  unfold reorderPred
  split
  · exact List.mem_append_left _ hv
  · exact hv

theorem reorderPred_ok {ns : List RNode} (h : OpsUp ns) : DepsOk ns.length (reorderPred ns) where
  nodup u := by
    have hnd : (reorderDeps ns u).Nodup := by
      unfold reorderDeps
      split
      · simp
      · exact List.nodup_dedup _
    unfold reorderPred
    split
    · refine List.Nodup.append hnd (List.nodup_range.filter _) ?_
      intro v hv hv'
      obtain ⟨hvu, hv0⟩ := List.mem_filter.1 hv'
      have h0 : degreeOf ns.length (reorderDeps ns) v = 0 := by simpa using hv0
      have := (List.countP_eq_zero.1 h0) u (by simpa using (reorderDeps_lt h hv).2)
      simp [hv] at this
    · exact hnd
  lt u v hv := by
    unfold reorderPred at hv
    split at hv
    · rcases List.mem_append.1 hv with hv | hv
      · exact (reorderDeps_lt h hv).1
      · simpa using (List.mem_filter.1 hv).1
    · exact (reorderDeps_lt h hv).1
  inb u hu := by
    unfold reorderPred
    rw [if_neg (by omega)]
    unfold reorderDeps
    rw [List.getElem?_eq_none hu]

theorem kahn_init {ns : List RNode} (h : OpsUp ns) (hne : ns ≠ []) : KahnInv ns.length (reorderPred ns) (degreeOf ns.length (reorderPred ns)) [ns.length - 1] [] := by
  have hpos : 0 < ns.length := List.length_pos_iff.2 hne
  have hD := reorderPred_ok h
  refine ⟨fun v => by simp [degreeOf], ?_, by simp, by simp, by simp, by simp⟩
  intro v
  simp only [List.mem_singleton, List.not_mem_nil, not_false_eq_true, true_and]
  constructor
  · rintro rfl
    refine ⟨by omega, List.countP_eq_zero.2 ?_⟩
    intro u hu hm
    have := hD.lt u _ (by simpa using hm)
    simp at hu
    omega
  · rintro ⟨hv, h0⟩
    by_contra hne'
    have h1 : degreeOf ns.length (reorderDeps ns) v = 0 := by
      refine List.countP_eq_zero.2 ?_
      intro u hu hm
      refine (List.countP_eq_zero.1 h0) u hu ?_
      simpa using reorderPred_deps (by simpa using hm)
    refine (List.countP_eq_zero.1 h0) (ns.length - 1) (by simp; omega) ?_
    unfold reorderPred
    rw [if_pos (by omega)]
    simp only [List.contains_eq_mem, decide_eq_true_eq]
    refine List.mem_append_right _ (List.mem_filter.2 ⟨by simp; omega, by simpa using h1⟩)

/-- **the order of the instructions**: each once (the assertion in l.170), each after all it depends on, the terminator at the end -/
theorem reorderNodes_ok (pick : List Nat → Nat) {ns : List RNode} (h : OpsUp ns) (hne : ns ≠ []) : (reorderNodes pick ns).Perm (List.range ns.length) ∧
    (reorderNodes pick ns).Pairwise (fun a b => b ∉ reorderDeps ns a) ∧ ∃ l, reorderNodes pick ns = l ++ [ns.length - 1] := by
  have hD := reorderPred_ok h
  have hpos : 0 < ns.length := List.length_pos_iff.2 hne
  obtain ⟨deg, I, l, hl⟩ := reorderLoop_ok pick hD ns.length _ _ _ (kahn_init h hne) (by simp)
  refine ⟨?_, ?_, ?_⟩
  · unfold reorderNodes
    refine (List.reverse_perm _).trans ?_
    rw [List.perm_ext_iff_of_nodup I.ond List.nodup_range]
    intro v
    constructor
    · intro hv; simpa using I.lt v hv
    · intro hv; exact I.all hD v (by simpa using hv)
  · unfold reorderNodes
    rw [List.pairwise_reverse]
    -- in the list itself: what comes later is not waiting for what comes first
    have hsuf : ∀ (l pre : List Nat), reorderLoop pick (reorderPred ns) ns.length (degreeOf ns.length (reorderPred ns)) [ns.length - 1] [] = pre ++ l → l.Pairwise (fun a b => a ∉ reorderDeps ns b) := by
      intro l
      induction l with
      | nil => intro _ _; exact .nil
      | cons x l ih =>
        intro pre hsp
        refine List.pairwise_cons.2 ⟨?_, ih (pre ++ [x]) (by rw [hsp]; simp)⟩
        intro b hb hd
        have h1 := I.topo pre x l hsp b (I.lt b (by rw [hsp]; simp [hb])) (reorderPred_deps hd)
        have hnd := I.ond
        rw [hsp] at hnd
        exact (List.nodup_append.1 hnd).2.2 b h1 b (by simp [hb]) rfl
    exact hsuf _ [] rfl
  · unfold reorderNodes
    -- the first node that is taken is the terminator
    obtain ⟨k, hk⟩ : ∃ k, ns.length = k + 1 := ⟨ns.length - 1, by omega⟩
    rw [hk]
    simp only [reorderLoop, List.length_singleton, Nat.mod_one, List.getD_cons_zero, List.nil_append]
    rw [← hk]
    have hm : ns.length - 1 ∈ [ns.length - 1] := by simp
    obtain ⟨deg', h1, l, h2⟩ := reorderLoop_ok pick hD k _ _ _ ((kahn_init h hne).step hD hm) (by simp; omega)
    simp only [List.nil_append] at h2
    rw [h2]
    exact ⟨l.reverse, by simp⟩

end Cmmc.SSA
