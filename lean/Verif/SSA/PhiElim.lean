import Verif.SSA.Cse
import Verif.SCC.Props
/-!
# C40: PhiEliminate (Transforms/DCE/PhiEliminate.cpp)
-/
namespace Cmmc.SSA
section
variable {Op C : Type} [DecidableEq C]

/-- the phi with the given id -/
def Func.phi? (F : Func Op C) (x : Nat) : Option (Phi C) := F.blocks.findSome? (fun B => B.phi? x)

/-- `getNode` (PhiEliminate.cpp:47-55): nodes are numbered in the order of their first appearance -/
def addNode (o : Opd C) (ns : List (Opd C)) : List (Opd C) := if o ∈ ns then ns else ns ++ [o]

/-- incoming values of a phi given by id -/
def Func.phiOps (F : Func Op C) (x : Nat) : List (Opd C) := match F.phi? x with | some p => p.ops | none => []

/-- the nodes after all calls of `addEdge` (PhiEliminate.cpp:62-68) -/
def sccNodes (F : Func Op C) (set : List Nat) : List (Opd C) :=
  set.foldl (fun ns x => (F.phiOps x).foldl (fun ns o => addNode o (addNode (.inst x) ns)) ns) []

/-- the edges from one node: from the phis of the set to their incoming values (PhiEliminate.cpp:56-68) -/
def sccEdges (F : Func Op C) (set : List Nat) (ns : List (Opd C)) : Opd C → List Nat
  | .inst x => if x ∈ set then (F.phiOps x).map (fun o => ns.idxOf o) else []
  | .cst _ => []

/-- `calcSubgraphSCC` (PhiEliminate.cpp:43-80): the groups by colour -/
def subgraphSCC (F : Func Op C) (set : List Nat) : Option (List (List (Opd C))) :=
  let ns := sccNodes F set
  match SCC.calcSCC (ns.map (sccEdges F set ns)) with
  | none => none
  | some (n, col) => some ((List.range n).map (fun c => ns.filter (fun o => decide (col[ns.idxOf o]? = some c))))

/-- `outerOps` of `processSCC` (PhiEliminate.cpp:97-113) as a duplicate-free list -/
def outerOps (F : Func Op C) (g : List (Opd C)) : List (Opd C) :=
  ((instIds g).flatMap (fun x => (F.phiOps x).filter (fun o => decide (o ∉ g)))).dedup

/-- `inner` of `processSCC` -/
def innerPhis (F : Func Op C) (g : List (Opd C)) : List Nat := (instIds g).filter (fun x => (F.phiOps x).all (fun o => decide (o ∈ g)))

/-- `processSCC` (PhiEliminate.cpp:93-125) -/
def processSCC (rec : List Nat → Func Op C → Option (Func Op C)) (F : Func Op C) (g : List (Opd C)) : Option (Func Op C) :=
  if g.length = 1 then some F
  else
    match outerOps F g with
    | [rep] => some ((instIds g).foldl (fun F x => F.replace x rep) F)
    | [] => some F
    | _ => rec (innerPhis F g) F

/-- `removeRedundantPhis` (PhiEliminate.cpp:82-91). `ord` is the order in which the hash set of phis is walked. -/
def removeRedundantPhis (ord : List Nat → List Nat) : Nat → List Nat → Func Op C → Option (Func Op C)
  | 0, _, _ => none
  | n + 1, set, F =>
    if set = [] then some F
    else
      match subgraphSCC F (ord set) with
      | none => none
      | some groups => groups.reverse.foldlM (processSCC (removeRedundantPhis ord n)) F

/-- `PhiEliminate::run` (PhiEliminate.cpp:128-139); the recursion is not deeper than the number of phis -/
def phiEliminate (ord : List Nat → List Nat) (F : Func Op C) : Option (Func Op C) :=
  let phis := F.blocks.flatMap (fun B => B.phis.map Phi.id)
  removeRedundantPhis ord (phis.length + 1) phis F

end

section
variable {Op C : Type} {F : Func Op C}

theorem path_unsnoc {E : Nat → Nat → Prop} {a b : Nat} {p : List Nat} (h : Dom.Path E a b p) :
    (a = b ∧ p = [a]) ∨ ∃ q p', Dom.Path E a q p' ∧ E q b ∧ p = p' ++ [b] := by
  induction h with
  | single a => exact .inl ⟨rfl, rfl⟩
  | @cons a d c p e hp ih =>
    right
    rcases ih with ⟨rfl, rfl⟩ | ⟨q, p', h1, h2, rfl⟩
    · exact ⟨a, [a], .single a, e, rfl⟩
    · exact ⟨q, a :: p', .cons e h1, h2, rfl⟩

theorem path_prefix_len {E : Nat → Nat → Prop} {a b c : Nat} {p : List Nat} (h : Dom.Path E a c p) (hb : b ∈ p) :
    ∃ q, Dom.Path E a b q ∧ (∀ x ∈ q, x ∈ p) ∧ q.length ≤ p.length := by
  induction h with
  | single a => simp only [List.mem_singleton] at hb; subst hb; exact ⟨[b], .single b, fun x h => h, le_refl _⟩
  | @cons a d c p e hp ih =>
    by_cases hab : b = a
    · subst hab; exact ⟨[b], .single b, by simp, by simp⟩
    · obtain ⟨q, hq, hs, hc⟩ := ih ((List.mem_cons.mp hb).resolve_left hab)
      refine ⟨a :: q, .cons e hq, ?_, by simpa using hc⟩
      intro x hx
      rcases List.mem_cons.mp hx with rfl | hx
      · simp
      · simp [hs x hx]

/-- a set of phis whose operands are in the set or equal to `rep` -/
def Closed (F : Func Op C) (S : List Nat) (rep : Opd C) : Prop :=
  (∀ x ∈ S, rep ≠ .inst x) ∧
  ∀ x ∈ S, ∃ b B p, F.blk b = some B ∧ p ∈ B.phis ∧ p.id = x ∧ ∀ o ∈ p.ops, o = rep ∨ ∃ y ∈ S, o = .inst y

theorem phi_defIn {b : Nat} {B : Block Op C} (hB : F.blk b = some B) {p : Phi C} (hp : p ∈ B.phis) : DefIn F p.id b :=
  ⟨B, hB, List.mem_append.mpr (.inl (List.mem_map.mpr ⟨p, hp, rfl⟩))⟩

/-- on every path to such a phi the definition of `rep` comes before -/
theorem Closed.onPath (P : Proper F) {S : List Nat} {r h : Nat} (hc : Closed F S (.inst r)) (hr : DefIn F r h) :
    ∀ (n : Nat) {x b : Nat} {p : List Nat}, x ∈ S → DefIn F x b → Dom.Path (Edge F) F.entry b p → p.length = n → ∃ p', p = p' ++ [b] ∧ h ∈ p' := by
  intro n
  induction n using Nat.strongRecOn with
  | _ n ih =>
    intro x b p hx hb hp hn
    obtain ⟨b', B, ph, hB, hph, rfl, hops⟩ := hc.2 x hx
    have := P.home hb (phi_defIn hB hph)
    subst this
    rcases path_unsnoc hp with ⟨e, _⟩ | ⟨q, p', hp', he, rfl⟩
    · have := P.entryPhis B (e ▸ hB)
      rw [this] at hph
      simp at hph
    · refine ⟨p', rfl, ?_⟩
      have hlq : Live F q := ⟨p', hp'⟩
      have hlb : Live F b := hlq.edge he
      obtain ⟨v, hv⟩ := P.phiAll b B ph q hB hlb hph he hlq
      have hvo : v ∈ ph.ops := mem_ops.mpr ⟨q, hv⟩
      have dom : ∀ {y d}, v = .inst y → DefIn F y d → Domi F d q := by
        intro y d e hd
        subst e
        exact P.phiDom b B ph q y d hB hlb hph hv hd (P.deadPhis b B ph y d hB hlb hph hvo hd) hlq
      rcases hops v hvo with e | ⟨y, hy, e⟩
      · exact dom e hr p' hp'
      · obtain ⟨c, C', ph', hC, hph', hid, _⟩ := hc.2 y hy
        have hyc : DefIn F y c := hid ▸ phi_defIn hC hph'
        have hcp := dom e hyc p' hp'
        obtain ⟨p2, hp2, hsub, hlen⟩ := path_prefix_len hp' hcp
        obtain ⟨p3, rfl, h3⟩ := ih p2.length (by rw [← hn, List.length_append]; simp; omega) hy hyc hp2 rfl
        exact hsub _ (by simp [h3])

theorem Closed.before (P : Proper F) (hlive : AllLive F) {S : List Nat} {r : Nat} (hc : Closed F S (.inst r)) {x : Nat} (hx : x ∈ S)
    (hr : ∃ h, DefIn F r h) : Before F r x := by
  obtain ⟨h, hr⟩ := hr
  obtain ⟨b, B, ph, hB, hph, rfl, hops⟩ := hc.2 x hx
  have hb := hlive b B hB
  have hd := phi_defIn hB hph
  refine .inl ⟨h, b, hr, hd, ?_, hb, ?_⟩
  · rintro rfl
    obtain ⟨p, hp⟩ := hb
    obtain ⟨q, hq, _, hcount⟩ := first_visit hp (path_end hp)
    obtain ⟨p', rfl, hm⟩ := hc.onPath P hr _ hx hd hq rfl
    rw [List.count_append] at hcount
    have := List.count_pos_iff.mpr hm
    simp at hcount
    omega
  · intro p hp
    obtain ⟨p', rfl, hm⟩ := hc.onPath P hr _ hx hd hp rfl
    simp [hm]

/-- simultaneous replacement of a set -/
def onSet [DecidableEq C] (S : List Nat) (rep : Opd C) : Nat → Opd C := fun x => if x ∈ S then rep else .inst x

theorem Opd.sub_sub {σ τ : Nat → Opd C} (o : Opd C) : (o.sub σ).sub τ = o.sub (fun x => (σ x).sub τ) := by cases o <;> rfl

theorem Func.sub_sub (F : Func Op C) (σ τ : Nat → Opd C) : (F.sub σ).sub τ = F.sub (fun x => (σ x).sub τ) := by
  unfold Func.sub
  simp only [Option.map_map]
  congr 1
  funext b
  congr 1
  funext B
  have ho : (fun o : Opd C => (o.sub σ).sub τ) = Opd.sub (fun x => (σ x).sub τ) := funext Opd.sub_sub
  simp only [Function.comp, Block.sub, List.map_map]
  congr 1
  · congr 1; funext p
    simp only [Function.comp, Phi.sub, List.map_map]
    congr 1
    refine congrArg (fun f => p.inc.map f) ?_
    funext e
    simp [Function.comp, Opd.sub_sub]
  · congr 1; funext i
    simp only [Function.comp, Inst.sub, List.map_map]
    congr 1
    exact congrArg (fun f => i.args.map f) ho
  · cases B.term with
    | ret v => cases v <;> simp [Term.sub, Opd.sub_sub]
    | br t => rfl
    | cbr c t f => simp [Term.sub, Opd.sub_sub]
    | sw c d cs => simp [Term.sub, Opd.sub_sub]
    | unreachable => rfl

theorem Opd.sub_id (o : Opd C) : o.sub (fun x => .inst x) = o := by cases o <;> rfl

theorem Func.sub_id (F : Func Op C) : F.sub (fun x => .inst x) = F := by
  have ho : (Opd.sub (fun x => .inst x) : Opd C → Opd C) = id := funext Opd.sub_id
  have hb : (Block.sub (fun x => .inst x) : Block Op C → Block Op C) = id := by
    funext B
    obtain ⟨ps, is, t⟩ := B
    simp only [Block.sub, id]
    congr 1
    · conv_rhs => rw [← List.map_id ps]
      congr 1; funext p; simp [Phi.sub, ho]
    · conv_rhs => rw [← List.map_id is]
      congr 1; funext p; simp [Inst.sub, ho]
    · cases t with
      | ret v => cases v <;> simp [Term.sub, ho]
      | br t => rfl
      | cbr c t f => simp [Term.sub, ho]
      | sw c d cs => simp [Term.sub, ho]
      | unreachable => rfl
  unfold Func.sub
  rw [hb]
  simp

/-- replacing one after the other is replacing all at once, if the replacement is not one of them -/
theorem foldl_replace [DecidableEq C] {rep : Opd C} : ∀ (S : List Nat) (F : Func Op C), (∀ x ∈ S, rep ≠ .inst x) →
    S.foldl (fun F x => F.replace x rep) F = F.sub (onSet S rep) := by
  intro S
  induction S with
  | nil =>
    intro F _
    have : (onSet [] rep : Nat → Opd C) = fun x => .inst x := by funext x; simp [onSet]
    rw [this, Func.sub_id]; rfl
  | cons y S ih =>
    intro F h
    rw [List.foldl_cons, ih _ (fun x hx => h x (by simp [hx]))]
    unfold Func.replace
    rw [Func.sub_sub]
    congr 1
    funext x
    unfold onSet one
    by_cases hxy : x = y
    · subst hxy
      simp only [if_true, List.mem_cons, true_or]
      cases rep with
      | cst c => rfl
      | inst r =>
        simp only [Opd.sub]
        rw [if_neg]
        intro hr
        exact h r (by simp [hr]) rfl
    · simp [hxy, Opd.sub]

end

section
variable {L : Lang} {F : L.F}

/-- replacing such a set of phis by `rep` -/
theorem closed_ok (P : Proper F) (hlive : AllLive F) {S : List Nat} {rep : Opd L.C} (hc : Closed F S rep) (hr : ∀ r, rep = .inst r → ∃ h, DefIn F r h) :
    Good F (F.sub (onSet S rep)) := by
  have hbef : ∀ x ∈ S, ∀ r, rep = .inst r → Before F r x := by
    intro x hx r e
    subst e
    exact hc.before P hlive hx (hr r rfl)
  have I : PointInv F (fun c k env => ∀ x ∈ S, Avail F c k x → eval L env rep = env x) := by
    refine ⟨?_, ?_, ?_⟩
    · intro x hx hav
      obtain ⟨b, B, ph, hB, hph, rfl, _⟩ := hc.2 x hx
      obtain ⟨d, hd, hdom, _⟩ := hav
      have h1 := P.home hd (phi_defIn hB hph)
      have h2 := domi_entry hdom
      rw [h1] at h2
      have := P.entryPhis B (h2 ▸ hB)
      simp [this] at hph
    · intro q c Cb A env env' hq hqc hA hC hQ hen x hx hav
      have hl : Live F c := hq.edge hqc
      -- `rep` does not change
      have hrep : eval L env' rep = eval L env rep := by
        cases hrep : rep with
        | cst _ => rfl
        | inst r =>
          simp only [eval]
          refine enterPhis_other hen r (fun hm => ?_)
          have hrc : DefIn F r c := ⟨Cb, hC, List.mem_append.mpr (.inl hm)⟩
          obtain ⟨d, hd, hdom, _⟩ := hav
          subst hrep
          obtain ⟨p, hp⟩ := hl
          obtain ⟨p1, hp1, _, hcnt⟩ := first_visit hp (path_end hp)
          -- the home of `x` is on this path, and `c` strictly before
          obtain ⟨p2, hp2, hsub, _⟩ := path_prefix_len hp1 (hdom p1 hp1)
          rcases path_unsnoc hp1 with ⟨e, _⟩ | ⟨q', p', hp', he', rfl⟩
          · have := P.entryPhis Cb (e ▸ hC)
            simp [this] at hm
          · have hcp' : c ∉ p' := by
              intro h
              rw [List.count_append] at hcnt
              simp at hcnt
              have := List.count_pos_iff.mpr h
              omega
            by_cases hdc : d = c
            · subst hdc
              obtain ⟨p3, e3, hm3⟩ := hc.onPath P hrc _ hx hd hp1 rfl
              have := List.append_inj_left' e3 rfl
              exact hcp' (this ▸ hm3)
            · have hdq := hdom.pred hdc he'
              obtain ⟨p4, hp4, hsub4, _⟩ := path_prefix_len hp' (hdq p' hp')
              obtain ⟨p5, rfl, hm5⟩ := hc.onPath P hrc _ hx hd hp4 rfl
              exact hcp' (hsub4 _ (by simp [hm5]))
      rw [hrep]
      rcases P.avail_enter hqc hA hC hav with h | ⟨h, hav'⟩
      · obtain ⟨b, B, ph, hB, hph, rfl, hops⟩ := hc.2 x hx
        have := P.home (phi_defIn hB hph) ⟨Cb, hC, List.mem_append.mpr (.inl h)⟩
        subst this
        have := Option.some.inj (hC.symm.trans hB)
        subst this
        obtain ⟨h1, h2⟩ := enterPhis_val hen (P.phis_nodup hC) ph hph
        rw [h1] at h2 ⊢
        unfold phiVal at h2 ⊢
        simp only at h2 ⊢
        cases hat : ph.at q with
        | none => rw [hat] at h2; simp at h2
        | some v =>
          simp only
          have hv := Phi.at_mem hat
          rcases hops v (mem_ops.mpr ⟨q, hv⟩) with e | ⟨y, hy, e⟩
          · rw [e]
          · subst e
            exact hQ y hy (P.phi_avail hC hl hA hq hph hv)
      · rw [hQ x hx hav']
        refine (enterPhis_other hen x (fun hm => h (List.mem_append.mpr (.inl hm)))).symm
    · intro c k Cb i env vs v m m' es hcl hC hi hQ hvs hs x hx hav
      have him := List.mem_of_getElem? hi
      obtain ⟨b, B, ph, hB, hph, rfl, hops⟩ := hc.2 x hx
      have hne := P.phi_ne_inst hB hC hph him
      rw [setEnv_of_ne hne]
      rcases avail_succ hC hi hav with h | h
      · rw [← hQ _ hx h]
        cases hrep : rep with
        | cst _ => rfl
        | inst r =>
          simp only [eval]
          refine setEnv_of_ne ?_
          rintro rfl
          exact P.not_avail hC hi ((hbef _ hx _ hrep).avail P h)
      · exact absurd h hne
  refine ⟨refines_sub I P ?_, proper_sub P ?_, sameIds_sub F _⟩
  · intro b k env x _ hQ hav
    unfold onSet
    split
    · rename_i h; exact hQ x h hav
    · rfl
  · intro x y e
    unfold onSet at e
    split at e
    · rename_i h; exact .inr (hbef x h y e)
    · simp only [Opd.inst.injEq] at e; exact .inl e.symm


end

section
variable {Op C : Type} [DecidableEq C]

theorem mem_addNode {o o' : Opd C} {ns : List (Opd C)} : o ∈ addNode o' ns ↔ o = o' ∨ o ∈ ns := by
  unfold addNode
  split
  · rename_i h
    constructor
    · exact .inr
    · rintro (rfl | h')
      · exact h
      · exact h'
  · simp [or_comm]

theorem addNode_nodup {o : Opd C} {ns : List (Opd C)} (h : ns.Nodup) : (addNode o ns).Nodup := by
  unfold addNode
  split
  · exact h
  · rename_i h'
    rw [List.nodup_append]
    exact ⟨h, by simp, by rintro a ha b hb rfl; simp at hb; exact h' (hb ▸ ha)⟩

theorem sccNodes_spec (F : Func Op C) (set : List Nat) : (sccNodes F set).Nodup ∧ ∀ x ∈ set, ∀ o ∈ F.phiOps x, o ∈ sccNodes F set := by
  have inner : ∀ (x : Nat) (os : List (Opd C)) (ns : List (Opd C)), ns.Nodup →
      (os.foldl (fun ns o => addNode o (addNode (.inst x) ns)) ns).Nodup ∧
      (∀ o ∈ ns, o ∈ os.foldl (fun ns o => addNode o (addNode (.inst x) ns)) ns) ∧
      ∀ o ∈ os, o ∈ os.foldl (fun ns o => addNode o (addNode (.inst x) ns)) ns := by
    intro x os
    induction os with
    | nil => intro ns h; exact ⟨h, fun _ h => h, by simp⟩
    | cons o os ih =>
      intro ns h
      obtain ⟨h1, h2, h3⟩ := ih (addNode o (addNode (.inst x) ns)) (addNode_nodup (addNode_nodup h))
      refine ⟨h1, fun o' ho' => h2 o' (mem_addNode.mpr (.inr (mem_addNode.mpr (.inr ho')))), fun o' ho' => ?_⟩
      rcases List.mem_cons.mp ho' with rfl | ho'
      · exact h2 _ (mem_addNode.mpr (.inl rfl))
      · exact h3 o' ho'
  have outer : ∀ (set : List Nat) (ns : List (Opd C)), ns.Nodup →
      (set.foldl (fun ns x => (F.phiOps x).foldl (fun ns o => addNode o (addNode (.inst x) ns)) ns) ns).Nodup ∧
      (∀ o ∈ ns, o ∈ set.foldl (fun ns x => (F.phiOps x).foldl (fun ns o => addNode o (addNode (.inst x) ns)) ns) ns) ∧
      ∀ x ∈ set, ∀ o ∈ F.phiOps x, o ∈ set.foldl (fun ns x => (F.phiOps x).foldl (fun ns o => addNode o (addNode (.inst x) ns)) ns) ns := by
    intro set
    induction set with
    | nil => intro ns h; exact ⟨h, fun _ h => h, by simp⟩
    | cons x set ih =>
      intro ns h
      obtain ⟨i1, i2, i3⟩ := inner x (F.phiOps x) ns h
      obtain ⟨h1, h2, h3⟩ := ih _ i1
      refine ⟨h1, fun o ho => h2 o (i2 o ho), fun y hy o ho => ?_⟩
      rcases List.mem_cons.mp hy with rfl | hy
      · exact h2 o (i3 o ho)
      · exact h3 y hy o ho
  obtain ⟨h1, _, h3⟩ := outer set [] List.nodup_nil
  exact ⟨h1, h3⟩

/-- the grouping never fails, and a group that is not a singleton consists of phis of the set -/
theorem subgraphSCC_spec (F : Func Op C) (set : List Nat) : ∃ gs, subgraphSCC F set = some gs ∧
    ∀ g ∈ gs, g.Nodup ∧ (g.length ≠ 1 → ∀ o ∈ g, ∃ x ∈ set, o = .inst x) := by
  obtain ⟨hn, hm⟩ := sccNodes_spec F set
  unfold subgraphSCC
  simp only
  generalize hns : sccNodes F set = ns at hn hm
  have hedge : ∀ u v, SCC.Edge (ns.map (sccEdges F set ns)) u v → ∃ x ∈ set, ns[u]? = some (.inst x) ∧ ∃ o ∈ F.phiOps x, v = ns.idxOf o := by
    intro u v h
    unfold SCC.Edge SCC.succ at h
    rw [List.getD_eq_getElem?_getD, List.getElem?_map] at h
    cases hu : ns[u]? with
    | none => rw [hu] at h; simp at h
    | some o =>
      rw [hu] at h
      simp only [Option.map_some, Option.getD_some] at h
      cases o with
      | cst c => simp [sccEdges] at h
      | inst x =>
        simp only [sccEdges] at h
        split at h
        · rename_i hx
          obtain ⟨o, ho, e⟩ := List.mem_map.mp h
          exact ⟨x, hx, rfl, o, ho, e.symm⟩
        · simp at h
  have hv : SCC.Valid (ns.map (sccEdges F set ns)) := by
    intro u v h
    obtain ⟨x, hx, _, o, ho, rfl⟩ := hedge u v h
    rw [List.length_map]
    exact List.idxOf_lt_length_of_mem (hm x hx o ho)
  obtain ⟨count, col, e, hlen, hcol, _⟩ := SCC.C10_calcSCC_correct _ hv
  rw [e]
  refine ⟨_, rfl, ?_⟩
  intro g hg
  obtain ⟨c, hc, rfl⟩ := List.mem_map.mp hg
  refine ⟨hn.filter _, ?_⟩
  intro hl o ho
  -- there is another one
  have hother : ∃ o' ∈ ns.filter (fun o => decide (col[ns.idxOf o]? = some c)), o' ≠ o := by
    by_contra hcon
    push Not at hcon
    apply hl
    have hnd := hn.filter (fun o => decide (col[ns.idxOf o]? = some c))
    generalize ns.filter (fun o => decide (col[ns.idxOf o]? = some c)) = l at ho hcon hnd
    match l, ho, hcon, hnd with
    | [a], _, _, _ => rfl
    | a :: b :: l, _, hcon, hnd =>
      have h1 := hcon a (by simp)
      have h2 := hcon b (by simp)
      rw [h1, h2] at hnd
      simp at hnd
  obtain ⟨o', ho', hne⟩ := hother
  rw [List.mem_filter] at ho ho'
  simp only [decide_eq_true_eq] at ho ho'
  have hi := List.idxOf_lt_length_of_mem ho.1
  have hi' := List.idxOf_lt_length_of_mem ho'.1
  have hr := (hcol (ns.idxOf o) (ns.idxOf o') (by rw [List.length_map]; exact hi) (by rw [List.length_map]; exact hi')).mp (by rw [ho.2, ho'.2])
  rcases Relation.ReflTransGen.cases_head hr.1 with h | ⟨v, h, _⟩
  · exact absurd ((List.idxOf_inj ho.1).mp h).symm hne
  · obtain ⟨x, hx, hu, _⟩ := hedge _ _ h
    refine ⟨x, hx, ?_⟩
    rw [List.getElem?_eq_getElem hi, List.getElem_idxOf hi] at hu
    exact Option.some.inj hu

end

section
variable {L : Lang} {F : L.F}

/-- `x` is a phi -/
def IsPhi {Op C : Type} (F : Func Op C) (x : Nat) : Prop := ∃ b B, F.blk b = some B ∧ x ∈ B.phis.map Phi.id

theorem phi?_of {Op C : Type} {F : Func Op C} (P : Proper F) {x : Nat} (h : IsPhi F x) : ∃ b B p, F.blk b = some B ∧ p ∈ B.phis ∧ p.id = x ∧ F.phi? x = some p := by
  obtain ⟨b, B, hB, hx⟩ := h
  have hex : ∃ p, F.phi? x = some p := by
    rw [← Option.isSome_iff_exists]
    unfold Func.phi?
    rw [List.findSome?_isSome_iff]
    refine ⟨B, P.listed.mem hB, ?_⟩
    unfold Block.phi?
    rw [List.find?_isSome]
    obtain ⟨p, hp, e⟩ := List.mem_map.mp hx
    exact ⟨p, hp, by simpa using e⟩
  obtain ⟨p, hp⟩ := hex
  obtain ⟨B', hB', hp'⟩ := List.exists_of_findSome?_eq_some hp
  obtain ⟨b', _, hb'⟩ := Func.mem_blocks.mp hB'
  obtain ⟨h1, h2⟩ := Block.phi?_mem hp'
  exact ⟨b', B', p, hb', h1, h2, hp⟩

theorem IsPhi.same {F G : L.F} (h : SameIds F G) {x : Nat} (hx : IsPhi F x) : IsPhi G x := by
  obtain ⟨b, B, hB, hm⟩ := hx
  obtain ⟨B', hB', e, _⟩ := h.blk hB
  exact ⟨b, B', hB', e ▸ hm⟩

theorem AllLive.sub {Op C : Type} {F : Func Op C} (h : AllLive F) (σ : Nat → Opd C) : AllLive (F.sub σ) := by
  intro b B hB
  obtain ⟨B', hB', _⟩ := sub_blk hB
  exact (Func.sub_live σ b).mpr (h b B' hB')

/-- what every stretch of the pass achieves -/
def Good' (F G : L.F) : Prop := Good F G ∧ AllLive G

theorem processSCC_ok {rec : List Nat → L.F → Option L.F} {n : Nat}
    (hrec : ∀ set F, Proper F → AllLive F → set.Nodup → set.length < n → (∀ x ∈ set, IsPhi F x) → ∃ G, rec set F = some G ∧ Good' F G)
    (P : Proper F) (hlive : AllLive F) {g : List (Opd L.C)} {set : List Nat} (hn : g.Nodup) (hsn : set.length ≤ n)
    (hg : g.length ≠ 1 → ∀ o ∈ g, ∃ x ∈ set, o = .inst x) (hset : ∀ x ∈ set, IsPhi F x) :
    ∃ G, processSCC rec F g = some G ∧ Good' F G := by
  have hkeep : Good' F F := ⟨⟨Refines.refl F, P, SameIds.refl F⟩, hlive⟩
  unfold processSCC
  split
  · exact ⟨F, rfl, hkeep⟩
  · rename_i h1
    have hg := hg h1
    have hphi : ∀ x, x ∈ instIds g → IsPhi F x := by
      intro x hx
      obtain ⟨y, hy, e⟩ := hg _ (mem_instIds.mp hx)
      simp only [Opd.inst.injEq] at e
      exact e ▸ hset y hy
    have hmem : ∀ x ∈ instIds g, ∀ o ∈ F.phiOps x, o ∈ g ∨ o ∈ outerOps F g := by
      intro x hx o ho
      by_cases h : o ∈ g
      · exact .inl h
      · right
        unfold outerOps
        rw [List.mem_dedup, List.mem_flatMap]
        exact ⟨x, hx, List.mem_filter.mpr ⟨ho, by simpa using h⟩⟩
    have hout : ∀ o ∈ outerOps F g, o ∉ g ∧ ∃ x ∈ instIds g, o ∈ F.phiOps x := by
      intro o ho
      unfold outerOps at ho
      rw [List.mem_dedup, List.mem_flatMap] at ho
      obtain ⟨x, hx, ho⟩ := ho
      rw [List.mem_filter] at ho
      exact ⟨by simpa using ho.2, x, hx, ho.1⟩
    split
    · rename_i rep hrep
      refine ⟨_, rfl, ?_⟩
      have hr := hout rep (by rw [hrep]; simp)
      have hne : ∀ x ∈ instIds g, rep ≠ .inst x := by
        rintro x hx rfl
        exact hr.1 (mem_instIds.mp hx)
      rw [foldl_replace _ _ hne]
      refine ⟨closed_ok P hlive ⟨hne, ?_⟩ ?_, hlive.sub _⟩
      · intro x hx
        obtain ⟨b, B, p, hB, hp, hid, he⟩ := phi?_of P (hphi x hx)
        refine ⟨b, B, p, hB, hp, hid, ?_⟩
        intro o ho
        have ho' : o ∈ F.phiOps x := by unfold Func.phiOps; rw [he]; exact ho
        rcases hmem x hx o ho' with h | h
        · obtain ⟨y, _, e⟩ := hg o h
          exact .inr ⟨y, mem_instIds.mpr (e ▸ h), e⟩
        · rw [hrep] at h
          exact .inl (by simpa using h)
      · rintro r rfl
        obtain ⟨x, hx, ho⟩ := hr.2
        obtain ⟨b, B, p, hB, hp, hid, he⟩ := phi?_of P (hphi x hx)
        unfold Func.phiOps at ho
        rw [he] at ho
        exact P.exists_ b B hB r (mem_operands.mpr (.inl ⟨p, hp, ho⟩))
    · exact ⟨F, rfl, hkeep⟩
    · rename_i h2 h3
      have hid : (instIds g).Nodup := by
        have : ∀ (l : List (Opd L.C)), l.Nodup → (instIds l).Nodup := by
          intro l
          induction l with
          | nil => intro _; simp [instIds]
          | cons o l ih =>
            intro h
            rw [List.nodup_cons] at h
            cases o with
            | cst c => exact ih h.2
            | inst x =>
              simp only [instIds, List.nodup_cons]
              exact ⟨fun hm => h.1 (mem_instIds.mp hm), ih h.2⟩
        exact this g hn
      refine hrec _ F P hlive (hid.filter _) ?_ (fun x hx => hphi x (List.mem_filter.mp hx).1)
      -- some phi of the group has an operand outside
      have hlt : (innerPhis F g).length < (instIds g).length := by
        cases ho : outerOps F g with
        | nil => exact absurd ho h3
        | cons o os =>
          obtain ⟨hog, x, hx, hox⟩ := hout o (by rw [ho]; simp)
          unfold innerPhis
          refine List.length_filter_lt_length_iff_exists.mpr ⟨x, hx, ?_⟩
          rw [List.all_eq_true]
          intro hall
          have := hall o hox
          simp only [decide_eq_true_eq] at this
          exact hog this
      have hle : (instIds g).length ≤ set.length := by
        refine (hid.subperm (fun x hx => ?_)).length_le
        obtain ⟨y, hy, e⟩ := hg _ (mem_instIds.mp hx)
        simp only [Opd.inst.injEq] at e
        exact e ▸ hy
      omega

theorem removeRedundantPhis_ok {ord : List Nat → List Nat} (hord : ∀ l, (ord l).Perm l) : ∀ (n : Nat) (set : List Nat) (F : L.F), Proper F → AllLive F →
    set.Nodup → set.length < n → (∀ x ∈ set, IsPhi F x) → ∃ G, removeRedundantPhis ord n set F = some G ∧ Good' F G := by
  intro n
  induction n with
  | zero => intro set F _ _ _ h; omega
  | succ n ih =>
    intro set F P hlive hnd hlen hphi
    have hkeep : Good' F F := ⟨⟨Refines.refl F, P, SameIds.refl F⟩, hlive⟩
    unfold removeRedundantPhis
    split
    · exact ⟨F, rfl, hkeep⟩
    · obtain ⟨gs, he, hgs⟩ := subgraphSCC_spec F (ord set)
      rw [he]
      simp only
      have : ∀ (l : List (List (Opd L.C))) (G : L.F), (∀ g ∈ l, g ∈ gs) → Good' F G →
          ∃ K, l.foldlM (processSCC (removeRedundantPhis ord n)) G = some K ∧ Good' F K := by
        intro l
        induction l with
        | nil => intro G _ h; exact ⟨G, rfl, h⟩
        | cons g l ihl =>
          intro G hl hG
          obtain ⟨h1, h2⟩ := hgs g (hl g (by simp))
          obtain ⟨K, hK, hgood⟩ := processSCC_ok (F := G) (set := ord set) (g := g) (n := n) ih hG.1.2.1 hG.2 h1
            (by rw [(hord set).length_eq]; omega) h2 (fun x hx => (hphi x ((hord set).mem_iff.mp hx)).same hG.1.2.2)
          rw [List.foldlM_cons, hK]
          exact ihl K (fun g hg => hl g (by simp [hg])) ⟨hG.1.trans hgood.1, hgood.2⟩
      exact this gs.reverse F (fun g hg => by simpa using hg) hkeep

/-- **C40.** On every function that the verifier accepts and whose blocks are reachable, and however hash sets are walked, PhiEliminate
terminates without exhausting its recursion, and the result is accepted, has the same blocks and instructions, and behaves the same in
every run (whatever the other instructions do). -/
theorem C40_phiEliminate {ord : List Nat → List Nat} (hord : ∀ l, (ord l).Perm l) (F : L.F) (P : Proper F) (hlive : AllLive F) :
    ∃ G, phiEliminate ord F = some G ∧ Refines L F G ∧ Proper G ∧ SameIds F G := by
  obtain ⟨G, h1, h2⟩ := removeRedundantPhis_ok hord _ (F.blocks.flatMap (fun B => B.phis.map Phi.id)) F P hlive (by
    have hu := P.unique
    unfold Func.allIds at hu
    rw [List.nodup_flatMap] at hu ⊢
    refine ⟨fun B hB => ?_, ?_⟩
    · have := hu.1 B hB
      unfold Block.ids at this
      rw [List.nodup_append] at this
      exact this.1
    · refine hu.2.imp ?_
      intro A B h x ha hb
      exact h (List.mem_append.mpr (.inl ha)) (List.mem_append.mpr (.inl hb))) (Nat.lt_succ_self _) (by
    intro x hx
    obtain ⟨B, hB, hm⟩ := List.mem_flatMap.mp hx
    obtain ⟨b, _, hb⟩ := Func.mem_blocks.mp hB
    exact ⟨b, B, hb, hm⟩)
  exact ⟨G, h1, h2.1⟩

end
end Cmmc.SSA

namespace Cmmc.SSA.Ex
open Cmmc.SSA
/-- `x = 2 + 3` carried around two nested loops by the phis 20 and 21, and around the inner loop by 30 (which is not redundant) -/
def nest : Func XOp Int := mk
  [(0, ⟨[], [⟨9, .add, [.cst 2, .cst 3]⟩], .br 1⟩),
   (1, ⟨[⟨20, [(0, .inst 9), (3, .inst 21)]⟩], [], .br 2⟩),
   (2, ⟨[⟨21, [(1, .inst 20), (2, .inst 21)]⟩, ⟨30, [(1, .cst 0), (2, .inst 31)]⟩], [⟨31, .add, [.inst 30, .cst 1]⟩, ⟨32, .lt, [.inst 31, .cst 2]⟩], .cbr (.inst 32) 2 3⟩),
   (3, ⟨[], [⟨40, .print, [.inst 21]⟩, ⟨41, .lt, [.inst 21, .cst 2]⟩], .cbr (.inst 41) 1 4⟩),
   (4, ⟨[], [], .ret (some (.inst 21))⟩)]

theorem nest_proper : Proper nest ∧ AllLive nest := mk_proper _ (by decide +kernel)

/-- both phis of the cycle are replaced by `x` -/
example : ∃ G, phiEliminate id nest = some G ∧ (G.blk 4) = some ⟨[], [], .ret (some (.inst 9))⟩ ∧
    (G.blk 2).map (fun B => B.phis.map (fun p => (p.id, p.inc))) = some [(21, [(1, .inst 9), (2, .inst 9)]), (30, [(1, .cst 0), (2, .inst 31)])] ∧
    Refines X nest G := by
  obtain ⟨G, hG, h, _⟩ := C40_phiEliminate (L := X) (ord := id) (fun _ => .refl _) nest nest_proper.1 nest_proper.2
  have hG' : phiEliminate (Op := XOp) (C := Int) id nest = some G := hG
  refine ⟨G, hG', ?_, ?_, h⟩
  · have : (phiEliminate (Op := XOp) (C := Int) id nest).bind (fun G => G.blk 4) = some ⟨[], [], .ret (some (.inst 9))⟩ := rfl
    rw [hG'] at this
    exact this
  · have : (phiEliminate (Op := XOp) (C := Int) id nest).map (fun G => (G.blk 2).map (fun B => B.phis.map (fun p => (p.id, p.inc)))) =
        some (some [(21, [(1, .inst 9), (2, .inst 9)]), (30, [(1, .cst 0), (2, .inst 31)])]) := rfl
    rw [hG'] at this
    exact Option.some.inj this
end Cmmc.SSA.Ex
