import Verif.SSA.Gvn
import Verif.Dom.Props
/-!
# C41: GVN is correct
-/
namespace Cmmc.SSA
section
variable {Op C : Type} {F : Func Op C}

theorem foldl_max_ge : ∀ (l : List Nat) (a : Nat), a ≤ l.foldl max a ∧ ∀ x ∈ l, x ≤ l.foldl max a := by
  intro l
  induction l with
  | nil => intro a; simp
  | cons y l ih =>
    intro a
    simp only [List.foldl_cons, List.mem_cons]
    obtain ⟨h1, h2⟩ := ih (max a y)
    refine ⟨by omega, ?_⟩
    rintro x (rfl | hx)
    · omega
    · exact h2 x hx

theorem freshId_fresh (hl : F.Listed) (d : Nat) : ¬ DefIn F F.freshId d := by
  intro h
  have hm := (mem_allIds hl).mpr ⟨d, h⟩
  have := (foldl_max_ge F.allIds 0).2 _ hm
  unfold Func.freshId at this
  omega

theorem before_sub (σ : Nat → Opd C) {x y : Nat} (h : Before F y x) : Before (F.sub σ) y x := by
  rcases h with ⟨dy, dx, h1, h2, h3, h4, h5⟩ | ⟨d, D, l₁, l₂, l₃, hD, hids⟩
  · exact .inl ⟨dy, dx, (Func.sub_defIn ..).mpr h1, (Func.sub_defIn ..).mpr h2, h3, (Func.sub_live ..).mpr h4, (Func.sub_domi ..).mpr h5⟩
  · exact .inr ⟨d, D.sub σ, l₁, l₂, l₃, by simp [Func.sub, hD], by rw [Block.sub_ids]; exact hids⟩

theorem before_ins {b : Nat} {i : Inst Op C} (hb : ∃ B, F.blk b = some B) {x y : Nat} (h : Before F y x) : Before (F.insertEnd b i) y x := by
  rcases h with ⟨dy, dx, h1, h2, h3, h4, h5⟩ | ⟨d, D, l₁, l₂, l₃, hD, hids⟩
  · exact .inl ⟨dy, dx, (ins_defIn hb).mpr (.inl h1), (ins_defIn hb).mpr (.inl h2), h3, (ins_live _).mpr h4, (ins_domi _ _).mpr h5⟩
  · by_cases hdb : d = b
    · subst hdb
      refine .inr ⟨d, _, l₁, l₂, l₃ ++ [i.id], ins_blk' hD, ?_⟩
      unfold Block.ids at hids ⊢
      simp only [if_true, List.map_append, List.map_cons, List.map_nil]
      rw [← List.append_assoc, hids]
      simp
    · refine .inr ⟨d, _, l₁, l₂, l₃, ins_blk' hD, ?_⟩
      simp only [if_neg hdb]
      exact hids

theorem lcaAll_spec {blocks : List Nat} {lca : Nat → Nat → Option Nat} {dominate : Nat → Nat → Bool} (hd : DomOk F blocks lca dominate) :
    ∀ (bs : List Nat) {c : Nat}, (∀ b ∈ bs, Live F b) → lcaAll lca bs = some c → bs ≠ [] ∧ ∀ b ∈ bs, Domi F c b := by
  have go : ∀ (bs : List Nat) (a c : Nat), Live F a → (∀ b ∈ bs, Live F b) → bs.foldl (fun a c => a.bind (fun a => lca a c)) (some a) = some c →
      Domi F c a ∧ ∀ b ∈ bs, Domi F c b := by
    intro bs
    induction bs with
    | nil => intro a c _ _ h; simp only [List.foldl_nil, Option.some.injEq] at h; subst h; exact ⟨Dom.dominates_refl, by simp⟩
    | cons b bs ih =>
      intro a c ha hb h
      obtain ⟨e, he, h1, h2⟩ := hd.lca a b ha (hb b (by simp))
      simp only [List.foldl_cons, Option.bind_some, he] at h
      obtain ⟨h3, h4⟩ := ih e c (h1.live ha) (fun x hx => hb x (by simp [hx])) h
      refine ⟨h3.trans h1, ?_⟩
      intro x hx
      rcases List.mem_cons.mp hx with rfl | hx
      · exact h3.trans h2
      · exact h4 x hx
  intro bs c hb h
  cases bs with
  | nil => simp [lcaAll] at h
  | cons b bs =>
    obtain ⟨h1, h2⟩ := go bs b c (hb b (by simp)) (fun x hx => hb x (by simp [hx])) h
    refine ⟨by simp, fun x hx => ?_⟩
    rcases List.mem_cons.mp hx with rfl | hx
    · exact h1
    · exact h2 x hx

/-- the first element with a property comes before the others with it -/
theorem find_first {l : List Nat} {R : Nat → Nat → Prop} (h : l.Pairwise R) {p : Nat → Bool} {r : Nat} (hr : l.find? p = some r) {x : Nat} (hx : x ∈ l) (hp : p x = true)
    (hne : x ≠ r) : R r x := by
  induction h with
  | nil => simp at hx
  | @cons a l h1 _ ih =>
    rw [List.find?_cons] at hr
    split at hr
    · simp only [Option.some.injEq] at hr
      subst hr
      rcases List.mem_cons.mp hx with rfl | hx
      · exact absurd rfl hne
      · exact h1 x hx
    · rename_i hpa
      rcases List.mem_cons.mp hx with rfl | hx
      · rw [hp] at hpa; simp at hpa
      · exact ih hr hx

/-- in one block, listed instructions are in order -/
theorem linear_pairwise (P : Proper F) {blocks : List Nat} (hn : blocks.Nodup) :
    (linear blocks F).Pairwise (fun x y => ∀ d, DefIn F x d → DefIn F y d → Before F x y) := by
  unfold linear
  rw [List.pairwise_flatMap]
  constructor
  · intro b _
    split
    · rename_i B hB
      have key : ∀ (pre is : List (Inst Op C)), B.body = pre ++ is → (is.map Inst.id).Pairwise (fun x y => ∀ d, DefIn F x d → DefIn F y d → Before F x y) := by
        intro pre is
        induction is generalizing pre with
        | nil => intro _; exact List.Pairwise.nil
        | cons i is ih =>
          intro e
          rw [List.map_cons, List.pairwise_cons]
          refine ⟨?_, ih (pre ++ [i]) (by rw [e]; simp)⟩
          intro y hy d _ _
          obtain ⟨m1, m2, hm⟩ := List.append_of_mem hy
          refine .inr ⟨b, B, B.phis.map Phi.id ++ pre.map Inst.id, m1, m2, hB, ?_⟩
          unfold Block.ids
          rw [e, List.map_append, List.map_cons, hm]
          simp
      exact key [] B.body rfl
    · exact List.Pairwise.nil
  · refine hn.imp ?_
    intro a b hab x hx y hy d hdx hdy
    exfalso
    split at hx
    · rename_i A hA
      split at hy
      · rename_i B hB
        have h1 := P.home hdx ⟨A, hA, List.mem_append.mpr (.inr hx)⟩
        have h2 := P.home hdy ⟨B, hB, List.mem_append.mpr (.inr hy)⟩
        exact hab (h1.symm.trans h2)
      · simp at hy
    · simp at hx

/-- same shape of operands: equal, or both instructions -/
def OpdLike (a b : Opd C) : Prop := a = b ∨ ∃ x y, a = .inst x ∧ b = .inst y

end

section
variable {L : Lang}

/-- an instruction that passes the test for speculation can be executed whatever the values of its instruction operands -/
def SpecOk (L : Lang) (spec : L.Op → List (Opd L.C) → Bool) : Prop :=
  ∀ op args args', spec op args = true → List.Forall₂ OpdLike args args' → ∀ (env : Env L) vs m, evals L env args' = some vs → ∃ v, L.sem op vs m = .ok v m []

/-- invariant of the second phase before class `n` is treated -/
structure GInv (F0 : L.F) (mv : L.Op → Bool) (vals : List (Opd L.C × Nat)) (insts : Nat → List Nat) (n : Nat) (g : GSt L.Op L.C) : Prop where
  proper : Proper g.F
  cons : Consistent g.F mv g.cls
  ref : Refines L F0 g.F
  entry : g.F.entry = F0.entry
  edge : Edge g.F = Edge F0
  mem : ∀ x k, g.cls x = some k → x ∈ insts k ∨ k < n
  listed : ∀ x k, x ∈ insts k → g.cls x = some k
  order : ∀ k, (insts k).Pairwise (fun x y => ∀ d, DefIn g.F x d → DefIn g.F y d → Before g.F x y)
  om : ∀ k v, g.om k = some v → (∃ r, v = .inst r ∧ k < n ∧ g.cls r = some k ∧ ∀ x, g.cls x = some k → x = r ∨ Before g.F r x) ∨ (v, k) ∈ vals
  disj : ∀ x k v, g.cls x = some k → (v, k) ∉ vals

variable {F0 : L.F} {mv : L.Op → Bool} {vals : List (Opd L.C × Nat)} {insts : Nat → List Nat} {n : Nat} {g : GSt L.Op L.C}

theorem GInv.live (J : GInv F0 mv vals insts n g) (b : Nat) : Live g.F b ↔ Live F0 b := by unfold Live; rw [J.edge, J.entry]
theorem GInv.domi (J : GInv F0 mv vals insts n g) (a b : Nat) : Domi g.F a b ↔ Domi F0 a b := by unfold Domi; rw [J.edge, J.entry]

theorem GInv.step (J : GInv F0 mv vals insts n g) : GInv F0 mv vals insts (n + 1) g :=
  { J with mem := fun x k h => (J.mem x k h).imp id (fun h => Nat.lt_succ_of_lt h)
           om := fun k v h => (J.om k v h).imp (fun ⟨r, h1, h2, h3⟩ => ⟨r, h1, Nat.lt_succ_of_lt h2, h3⟩) id }

/-- `x` belongs to a class: it is defined in a live block -/
theorem GInv.defd (J : GInv F0 mv vals insts n g) {x k : Nat} (h : g.cls x = some k) : ∃ d, DefIn g.F x d ∧ Live g.F d := by
  obtain ⟨d, D, i, hD, hi, hid, _, hl⟩ := J.cons.1 x k h
  exact ⟨d, ⟨D, hD, List.mem_append.mpr (.inr (List.mem_map.mpr ⟨i, hi, hid⟩))⟩, hl⟩

/-- choosing the representative and replacing the members -/
theorem gvnReplace_ok (hmv : Movable L mv) {cfg : GvnCfg L.Op L.C} (J : GInv F0 mv vals insts (n + 1) g) {r : Nat} (hr : g.cls r = some n)
    (hb : ∀ x, g.cls x = some n → x = r ∨ Before g.F r x) : GInv F0 mv vals insts (n + 1) (gvnReplace cfg n r (insts n) g) := by
  have J1 : GInv F0 mv vals insts (n + 1) { g with om := fun k => if k = n then some (.inst r) else g.om k } := by
    refine { J with om := ?_ }
    intro k v hv
    simp only at hv
    split at hv
    · rename_i e
      subst e
      simp only [Option.some.injEq] at hv
      exact .inl ⟨r, hv.symm, Nat.lt_succ_self _, hr, hb⟩
    · exact J.om k v hv
  unfold gvnReplace
  simp only
  split
  · exact J1
  · split
    · have key : ∀ (xs : List Nat) (g : GSt L.Op L.C), (∀ x ∈ xs, g.cls x = some n) → GInv F0 mv vals insts (n + 1) g → g.cls r = some n →
          (∀ x, g.cls x = some n → x = r ∨ Before g.F r x) →
          GInv F0 mv vals insts (n + 1) { g with F := xs.foldl (fun F x => if x = r then F else F.replace x (.inst r)) g.F } := by
        intro xs
        induction xs with
        | nil => intro g _ J _ _; exact J
        | cons x xs ih =>
          intro g hx J hr hb
          simp only [List.foldl_cons]
          by_cases hxr : x = r
          · rw [if_pos hxr]
            exact ih g (fun y hy => hx y (by simp [hy])) J hr hb
          · rw [if_neg hxr]
            have hbx := (hb x (hx x (by simp))).resolve_left hxr
            obtain ⟨⟨g1, g2, _⟩, g3⟩ := num_replace hmv J.proper J.cons (hx x (by simp)) hr hbx
            refine ih { g with F := g.F.replace x (.inst r) } (fun y hy => hx y (by simp [hy])) ?_ hr (fun y hy => (hb y hy).imp id (before_sub _))
            exact {
              proper := g2
              cons := g3
              ref := J.ref.trans g1
              entry := J.entry
              edge := (Func.sub_edge _).trans J.edge
              mem := J.mem
              listed := J.listed
              order := fun k => (J.order k).imp (fun h d h1 h2 => before_sub _ (h d ((Func.sub_defIn ..).mp h1) ((Func.sub_defIn ..).mp h2)))
              om := fun k v hv => (J.om k v hv).imp (fun ⟨r', e, hk, h1, h2⟩ => ⟨r', e, hk, h1, fun y hy => (h2 y hy).imp id (before_sub _)⟩) id
              disj := J.disj }
      exact key (insts n) { g with om := fun k => if k = n then some (.inst r) else g.om k } (fun x hx => J.listed x n hx) J1 hr hb
    · exact J1

/-- operands of hoisted instructions -/
theorem mapArg_ok (J : GInv F0 mv vals insts n g) (hnd : (vals.map Prod.snd).Nodup) (a : Opd L.C) :
    mapArg vals g a = a ∨ ∃ x y k, a = .inst x ∧ mapArg vals g a = .inst y ∧ g.cls x = some k ∧ g.cls y = some k ∧ Before g.F y x := by
  cases a with
  | cst c => exact .inl rfl
  | inst x =>
    have hm : mapArg vals g (.inst x) = match (g.cls x).orElse (fun _ => (vals.find? (fun e => decide (e.1 = .inst x))).map Prod.snd) with
        | none => .inst x
        | some k => (g.om k).getD (.inst x) := rfl
    rw [hm]
    clear hm
    cases hc : g.cls x with
    | some k =>
      simp only [Option.orElse]
      cases hom : g.om k with
      | none => exact .inl rfl
      | some v =>
        simp only [Option.getD_some]
        rcases J.om k v hom with ⟨r, rfl, _, h1, h2⟩ | hv
        · rcases h2 x hc with rfl | hb
          · exact .inl rfl
          · exact .inr ⟨x, r, k, rfl, rfl, hc, h1, hb⟩
        · exact absurd hv (J.disj x k v hc)
    | none =>
      simp only [Option.orElse]
      cases hf : vals.find? (fun e => decide (e.1 = .inst x)) with
      | none => exact .inl rfl
      | some e =>
        simp only [Option.map_some]
        have h1 := List.mem_of_find?_eq_some hf
        have h2 := List.find?_some hf
        simp only [decide_eq_true_eq] at h2
        cases hom : g.om e.2 with
        | none => exact .inl rfl
        | some v =>
          simp only [Option.getD_some]
          rcases J.om e.2 v hom with ⟨r, rfl, _, h3, _⟩ | hv
          · exact absurd h1 (J.disj r e.2 e.1 h3)
          · have := List.inj_on_of_nodup_map hnd hv h1 rfl
            rw [← this] at h2
            exact .inl h2

theorem gvnClass_ok (hmv : Movable L mv) {cfg : GvnCfg L.Op L.C} (hspec : SpecOk L cfg.spec) (hd : DomOk F0 cfg.blocks cfg.lca cfg.dominate)
    (hnd : (vals.map Prod.snd).Nodup) (J : GInv F0 mv vals insts n g) : GInv F0 mv vals insts (n + 1) (gvnClass cfg vals insts g n) := by
  have hhome : ∀ {x d : Nat}, g.F.home x = some d ↔ DefIn g.F x d := home_eq J.proper.listed J.proper.unique
  unfold gvnClass
  split
  · exact J.step
  · rename_i x hx
    refine { J.step with om := ?_ }
    intro k v hv
    simp only at hv
    split at hv
    · rename_i e
      subst e
      simp only [Option.some.injEq] at hv
      refine .inl ⟨x, hv.symm, Nat.lt_succ_self _, J.listed x k (by rw [hx]; simp), ?_⟩
      intro y hy
      rcases J.mem y k hy with h | h
      · rw [hx] at h; exact .inl (by simpa using h)
      · exact absurd h (Nat.lt_irrefl _)
    · exact J.step.om k v hv
  · rename_i x y xs hx
    have hmemn : ∀ z, g.cls z = some n → z ∈ insts n := fun z hz => (J.mem z n hz).resolve_right (Nat.lt_irrefl _)
    split
    · exact J.step
    · rename_i b hb
      have hlive : ∀ c ∈ (x :: y :: xs).filterMap g.F.home, Live F0 c := by
        intro c hc
        obtain ⟨z, hz, hzc⟩ := List.mem_filterMap.mp hc
        obtain ⟨d, h1, h2⟩ := J.defd (J.listed z n (by rw [hx]; exact hz))
        rw [J.proper.home (hhome.mp hzc) h1]
        exact (J.live d).mp h2
      obtain ⟨hne, hdom⟩ := lcaAll_spec hd _ hlive hb
      have hbl : Live F0 b := by
        obtain ⟨c, hc⟩ := List.exists_mem_of_ne_nil _ hne
        exact (hdom c hc).live (hlive c hc)
      have hdomg : ∀ z d, g.cls z = some n → DefIn g.F z d → Domi g.F b d ∧ Live g.F d := by
        intro z d hz hzd
        have hm : d ∈ (x :: y :: xs).filterMap g.F.home := List.mem_filterMap.mpr ⟨z, by rw [← hx]; exact hmemn z hz, hhome.mpr hzd⟩
        exact ⟨(J.domi b d).mpr (hdom d hm), (J.live d).mpr (hlive d hm)⟩
      split
      · rename_i r hr
        rw [← hx] at hr ⊢
        have hr1 := List.mem_of_find?_eq_some hr
        have hr2 := List.find?_some hr
        simp only [decide_eq_true_eq] at hr2
        have hrb := hhome.mp hr2
        have hcr := J.listed r n hr1
        refine gvnReplace_ok hmv J.step hcr ?_
        intro z hz
        by_cases hzr : z = r
        · exact .inl hzr
        · right
          obtain ⟨d, hzd, _⟩ := J.defd hz
          by_cases hdb : d = b
          · subst hdb
            exact find_first (J.order n) hr (hmemn z hz) (by simp [hhome.mpr hzd]) hzr d hrb hzd
          · obtain ⟨h1, h2⟩ := hdomg z d hz hzd
            exact .inl ⟨b, d, hrb, hzd, fun e => hdb e.symm, h2, h1⟩
      · rename_i hnone
        split
        · exact J.step
        · rename_i base hbase
          split
          · rename_i hc
            simp only [Bool.and_eq_true] at hc
            obtain ⟨⟨⟨_, _⟩, hsp⟩, hops⟩ := hc
            obtain ⟨db, DB, hDB, hbm, hbid⟩ := inst?_spec hbase
            have hcx : g.cls x = some n := J.listed x n (by rw [hx]; simp)
            have hbx : DefIn g.F x db := ⟨DB, hDB, List.mem_append.mpr (.inr (List.mem_map.mpr ⟨base, hbm, hbid⟩))⟩
            obtain ⟨hbdom, hdblive⟩ := hdomg x db hcx hbx
            set z := g.F.freshId with hz
            have hfresh : ∀ d, ¬ DefIn g.F z d := freshId_fresh J.proper.listed
            set i : Inst L.Op L.C := ⟨z, base.op, base.args.map (mapArg vals g)⟩ with hi
            have hblg : Live g.F b := (J.live b).mpr hbl
            have hbB : ∃ B, g.F.blk b = some B := J.proper.blk hblg
            have I : Insertable g.F b i := by
              refine ⟨hbB, hblg, hfresh, ?_⟩
              intro w hw
              obtain ⟨a, ha, haw⟩ := List.mem_map.mp hw
              have hax : ∀ w', Opd.inst w' = a → ∃ d, DefIn g.F w' d ∧ Domi g.F d b := by
                rintro w' rfl
                obtain ⟨d, hd'⟩ := J.proper.exists_ db DB hDB w' (mem_operands.mpr (.inr (.inl ⟨base, hbm, ha⟩)))
                refine ⟨d, hd', ?_⟩
                have := List.all_eq_true.mp hops w' (mem_instIds.mpr ha)
                rw [hhome.mpr hd'] at this
                simp only at this
                exact (J.domi d b).mpr (hd.dom d b this).2
              rcases mapArg_ok J hnd a with h | ⟨w1, w2, k, h1, h2, h3, h4, h5⟩
              · exact hax w (by rw [← h, haw])
              · obtain ⟨d, hd1, hd2⟩ := hax w1 h1.symm
                have e : w = w2 := by rw [h2] at haw; simpa using haw.symm
                subst e
                obtain ⟨e, he1, he2, _⟩ := h5.home J.proper hd1
                exact ⟨e, he1, he2.trans hd2⟩
            have hlike : List.Forall₂ OpdLike base.args i.args := by
              simp only [hi]
              rw [List.forall₂_map_right_iff, List.forall₂_same]
              intro a _
              rcases mapArg_ok J hnd a with h | ⟨w1, w2, k, h1, h2, _⟩
              · exact .inl h.symm
              · exact .inr ⟨w1, w2, h1, h2⟩
            have hclsz : g.cls z = none := by
              cases hcz : g.cls z with
              | none => rfl
              | some k =>
                obtain ⟨d, hd', _⟩ := J.defd hcz
                exact absurd hd' (hfresh d)
            let cls' : Nat → Option Nat := fun w => if w = z then some n else g.cls w
            have hext : ∀ {w k}, g.cls w = some k → cls' w = some k := by
              intro w k h
              show (if w = z then some n else g.cls w) = some k
              rw [if_neg (by rintro rfl; rw [hclsz] at h; simp at h)]
              exact h
            have hcls' : ∀ {w k}, cls' w = some k → (w = z ∧ k = n) ∨ g.cls w = some k := by
              intro w k h
              have h : (if w = z then some n else g.cls w) = some k := h
              split at h
              · rename_i e; exact .inl ⟨e, by simpa using h.symm⟩
              · exact .inr h
            have hsame : ∀ {a a' : Opd L.C}, SameNum g.cls a a' → SameNum cls' a a' := by
              intro a a' h
              exact h.imp id (fun ⟨u, v, k, h1, h2, h3, h4⟩ => ⟨u, v, k, h1, h2, hext h3, hext h4⟩)
            have hsameF : ∀ {as bs : List (Opd L.C)}, List.Forall₂ (SameNum g.cls) as bs → List.Forall₂ (SameNum cls') as bs := fun h => h.imp (fun _ _ => hsame)
            have hbz : List.Forall₂ (SameNum cls') base.args i.args := by
              simp only [hi]
              rw [List.forall₂_map_right_iff, List.forall₂_same]
              intro a _
              rcases mapArg_ok J hnd a with h | ⟨w1, w2, k, h1, h2, h3, h4, _⟩
              · exact .inl h.symm
              · exact .inr ⟨w1, w2, k, h1, h2, hext h3, hext h4⟩
            -- instructions of the new function
            have hinst : ∀ {d D j}, (g.F.insertEnd b i).blk d = some D → j ∈ D.body → (∃ D0, g.F.blk d = some D0 ∧ j ∈ D0.body) ∨ (d = b ∧ j = i) := by
              intro d D j hD hj
              obtain ⟨D0, hD0, _, _, hbody⟩ := ins_blk hD
              rw [hbody] at hj
              split at hj
              · rename_i e
                rcases List.mem_append.mp hj with h | h
                · exact .inl ⟨D0, hD0, h⟩
                · exact .inr ⟨e, by simpa using h⟩
              · exact .inl ⟨D0, hD0, hj⟩
            have hin : ∀ {d D j}, g.F.blk d = some D → j ∈ D.body → ∃ D', (g.F.insertEnd b i).blk d = some D' ∧ j ∈ D'.body := by
              intro d D j hD hj
              refine ⟨_, ins_blk' hD, ?_⟩
              simp only
              split
              · simp [hj]
              · exact hj
            have hnz : ∀ {d D j}, g.F.blk d = some D → j ∈ D.body → j.id ≠ z := by
              intro d D j hD hj e
              exact hfresh d ⟨D, hD, List.mem_append.mpr (.inr (List.mem_map.mpr ⟨j, hj, e⟩))⟩
            have hmvb : mv base.op = true := by
              obtain ⟨d, D, j, hD, hj, hjd, hm, _⟩ := J.cons.1 x n hcx
              obtain ⟨_, rfl⟩ := J.proper.inst_unique hDB hD hbm hj (by rw [hbid, hjd])
              exact hm
            have J' : GInv F0 mv vals insts (n + 1) ⟨g.F.insertEnd b i, cls', g.om⟩ := by
              refine {
                proper := proper_insert J.proper I
                cons := ⟨?_, ?_⟩
                ref := J.ref.trans (refines_insert J.proper I (fun env vs m h => hspec base.op base.args i.args hsp hlike env vs m h))
                entry := J.entry
                edge := ins_edge.trans J.edge
                mem := ?_
                listed := fun w k hw => hext (J.listed w k hw)
                order := ?_
                om := ?_
                disj := ?_ }
              · intro w k hw
                rcases hcls' hw with ⟨rfl, rfl⟩ | hw
                · obtain ⟨B, hB⟩ := hbB
                  refine ⟨b, _, i, ins_blk' hB, by simp, rfl, hmvb, (ins_live b).mpr hblg⟩
                · obtain ⟨d, D, j, hD, hj, hid, hm, hl⟩ := J.cons.1 w k hw
                  obtain ⟨D', hD', hj'⟩ := hin hD hj
                  exact ⟨d, D', j, hD', hj', hid, hm, (ins_live d).mpr hl⟩
              · intro u w k d D j e E j' hu hw hD hj hju hE hj' hjw
                -- the instruction behind a class member
                have find : ∀ {u k d D j}, cls' u = some k → (g.F.insertEnd b i).blk d = some D → j ∈ D.body → j.id = u →
                    ∃ u0 d0 D0 j0, g.cls u0 = some k ∧ g.F.blk d0 = some D0 ∧ j0 ∈ D0.body ∧ j0.id = u0 ∧ j.op = j0.op ∧ List.Forall₂ (SameNum cls') j.args j0.args := by
                  intro u k d D j hu hD hj hju
                  rcases hcls' hu with ⟨eu, ek⟩ | hu
                  · rcases hinst hD hj with ⟨D0, hD0, h⟩ | ⟨_, ej⟩
                    · exact absurd (hju.trans eu) (hnz hD0 h)
                    · rw [ej, ek]
                      exact ⟨x, db, DB, base, hcx, hDB, hbm, hbid, rfl, hbz.flip.imp (fun _ _ h => SameNum.symm h)⟩
                  · rcases hinst hD hj with ⟨D0, hD0, h⟩ | ⟨_, rfl⟩
                    · exact ⟨u, d, D0, j, hu, hD0, h, hju, rfl, List.forall₂_same.mpr (fun a _ => .refl _ a)⟩
                    · exfalso
                      rw [← hju] at hu
                      have hu : g.cls z = some k := hu
                      rw [hclsz] at hu
                      simp at hu
                obtain ⟨u0, d0, D0, j0, a1, a2, a3, a4, a5, a6⟩ := find hu hD hj hju
                obtain ⟨w0, e0, E0, k0, b1, b2, b3, b4, b5, b6⟩ := find hw hE hj' hjw
                obtain ⟨c1, c2⟩ := J.cons.2 u0 w0 k d0 D0 j0 e0 E0 k0 a1 b1 a2 a3 a4 b2 b3 b4
                refine ⟨a5.trans (c1.trans b5.symm), ?_⟩
                have htr : ∀ {as bs cs : List (Opd L.C)}, List.Forall₂ (SameNum cls') as bs → List.Forall₂ (SameNum cls') bs cs → List.Forall₂ (SameNum cls') as cs := by
                  intro as bs cs h1
                  induction h1 generalizing cs with
                  | nil => intro h2; exact h2
                  | cons p _ ih => intro h2; cases h2 with | cons q h2 => exact .cons (p.trans q) (ih h2)
                exact htr a6 (htr (hsameF c2) (b6.flip.imp (fun _ _ h => SameNum.symm h)))
              · intro w k hw
                rcases hcls' hw with ⟨_, rfl⟩ | hw
                · exact .inr (Nat.lt_succ_self _)
                · exact (J.mem w k hw).imp id Nat.lt_succ_of_lt
              · intro k
                refine (J.order k).imp_of_mem ?_
                intro u w hu hw h d h1 h2
                have nz : ∀ {w}, w ∈ insts k → w ≠ z := by
                  rintro w hw rfl
                  have := J.listed _ k hw
                  rw [hclsz] at this
                  simp at this
                have h1 := ((ins_defIn hbB).mp h1).resolve_right (fun e => nz hu e.2)
                have h2 := ((ins_defIn hbB).mp h2).resolve_right (fun e => nz hw e.2)
                exact before_ins hbB (h d h1 h2)
              · intro k v hv
                rcases J.om k v hv with ⟨r, e, hk, h1, h2⟩ | h
                · refine .inl ⟨r, e, Nat.lt_succ_of_lt hk, hext h1, ?_⟩
                  intro w hw
                  rcases hcls' hw with ⟨rfl, rfl⟩ | hw
                  · exact absurd hk (Nat.lt_irrefl _)
                  · exact (h2 w hw).imp id (before_ins hbB)
                · exact .inr h
              · intro w k v hw
                rcases hcls' hw with ⟨_, rfl⟩ | hw
                · exact J.disj x k v hcx
                · exact J.disj w k v hw
            have hcz' : cls' z = some n := by show (if z = z then some n else g.cls z) = some n; rw [if_pos rfl]
            rw [← hx]
            refine gvnReplace_ok hmv J' hcz' ?_
            intro w hw
            rcases hcls' hw with ⟨e, _⟩ | hw
            · exact .inl e
            · right
              obtain ⟨d, hwd, _⟩ := J.defd hw
              obtain ⟨h1, h2⟩ := hdomg w d hw hwd
              have hdb : b ≠ d := by
                rintro rfl
                have := List.find?_eq_none.mp hnone w (by rw [← hx]; exact hmemn w hw)
                simp [hhome.mpr hwd] at this
              exact .inl ⟨b, d, (ins_defIn hbB).mpr (.inr ⟨rfl, rfl⟩), (ins_defIn hbB).mpr (.inl hwd), hdb, (ins_live d).mpr h2, (ins_domi b d).mpr h1⟩
          · exact J.step


/-- C41 for any dominator tree: numbering terminates, and the result behaves like the original and is well-formed. -/
theorem gvn_ok (hmv : Movable L mv) {cfg : GvnCfg L.Op L.C} (hspec : SpecOk L cfg.spec) (F : L.F) (P : Proper F) (hd : DomOk F cfg.blocks cfg.lca cfg.dominate) :
    ∃ G, gvn mv cfg F = some G ∧ Refines L F G ∧ Proper G ∧ Edge G = Edge F := by
  have hw : ∀ x ∈ linear cfg.blocks F, Wanted F mv (.inst x) := by
    intro x hx i hi
    obtain ⟨e, _, d, D, hD, him⟩ := movable?_spec hi
    obtain ⟨b, hb, B, hB, j, hj, hjx⟩ := mem_linear.mp hx
    simp only [Opd.inst.injEq] at e
    obtain ⟨rfl, rfl⟩ := P.inst_unique hD hB him hj (by rw [hjx, e])
    exact ⟨d, D, hD, him, (hd.live d).mp hb⟩
  obtain ⟨st, hst⟩ := numberAll_some (mv := mv) P hd (linear cfg.blocks F) ⟨0, [], []⟩ (fun x hx => ⟨hx, hw x hx⟩)
  have I := numberAll_post P _ _ (nInv_start F mv) hw hst
  have hc := nInv_consistent P I
  have hnd : (st.vals.map Prod.snd).Nodup := by
    have := I.nodup
    rw [List.nodup_append] at this
    exact this.2.1
  unfold gvn
  simp only
  rw [hst]
  simp only
  set insts : Nat → List Nat := fun id => (linear cfg.blocks F).filter (fun x => (F.movable? mv (.inst x)).isSome && decide (st.cls x = some id)) with hinsts
  set om : Nat → Option (Opd L.C) := fun k => (st.vals.find? (fun e => e.2 == k)).map Prod.fst with hom
  have J0 : GInv F mv st.vals insts 0 ⟨F, st.cls, om⟩ := by
    refine {
      proper := P
      cons := hc
      ref := Refines.refl F
      entry := rfl
      edge := rfl
      mem := ?_
      listed := ?_
      order := fun k => (linear_pairwise P hd.nodup).filter _
      om := ?_
      disj := ?_ }
    · intro x k hx
      left
      obtain ⟨d, D, i, hD, hi, hid, hm, hl⟩ := hc.1 x k hx
      simp only [hinsts, List.mem_filter, Bool.and_eq_true, decide_eq_true_eq]
      refine ⟨mem_linear.mpr ⟨d, (hd.live d).mpr hl, D, hD, i, hi, hid⟩, ?_, hx⟩
      rw [← hid]
      simp [Func.movable?, P.inst?_eq hD hi, Option.filter, hm]
    · intro x k hx
      simp only [hinsts, List.mem_filter, Bool.and_eq_true, decide_eq_true_eq] at hx
      exact hx.2.2
    · intro k v hv
      simp only [hom] at hv
      obtain ⟨e, he, rfl⟩ := Option.map_eq_some_iff.mp hv
      have h2 := List.find?_some he
      simp only [beq_iff_eq] at h2
      subst h2
      exact .inr (List.mem_of_find?_eq_some he)
    · intro x k v hx hv
      obtain ⟨c, hc, e, _⟩ := mem_of_cls hx
      have hn := I.nodup
      rw [List.nodup_append] at hn
      exact hn.2.2 k (List.mem_map.mpr ⟨c, hc, e⟩) k (List.mem_map.mpr ⟨_, hv, rfl⟩) rfl
  have J : ∀ n, GInv F mv st.vals insts n ((List.range n).foldl (gvnClass cfg st.vals insts) ⟨F, st.cls, om⟩) := by
    intro n
    induction n with
    | zero => exact J0
    | succ n ih =>
      rw [List.range_succ, List.foldl_append]
      exact gvnClass_ok hmv hspec hd hnd ih
  exact ⟨_, rfl, (J st.alloc).ref, (J st.alloc).proper, (J st.alloc).edge⟩

/-- the dominator analysis gives GVN what it needs (functions with fewer than 2^21 blocks: the jump table of `lca`) -/
theorem dom_domOk (o : Orders) {F : L.F} (P : Proper F) (hb : F.bound ≤ 2 ^ 21) : ∃ t, F.dom o = some t ∧ DomOk F (domBlocks t) t.lca t.dominate := by
  obtain ⟨t, ht, _, h2, h3, h4, h5⟩ := dom_spec o P.nodup P.listed
  refine ⟨t, ht, h3, h4, h5, ?_, fun a b h => (h2 a b).mp h⟩
  have he : Dom.Edge (F.cfg o.cfg).succ = Edge F := by
    funext a b
    exact propext (cfg_succ o.hcfg P.nodup P.listed a b)
  have hv : ∀ u v, v ∈ (F.cfg o.cfg).succ u → v < F.bound := by
    intro u v h
    obtain ⟨B, hB, ht⟩ := (cfg_succ o.hcfg P.nodup P.listed u v).mp h
    have := (le_foldl_max (F.entry :: (F.order ++ F.blocks.flatMap (fun B => B.term.targets))) 0).2 v
      (List.mem_cons_of_mem _ (List.mem_append.mpr (.inr (List.mem_flatMap.mpr ⟨B, P.listed.mem hB, ht⟩))))
    unfold Func.bound
    omega
  have hr : F.entry < F.bound := by
    have := (le_foldl_max (F.entry :: (F.order ++ F.blocks.flatMap (fun B => B.term.targets))) 0).2 F.entry (by simp)
    unfold Func.bound
    omega
  obtain ⟨t', e', _, h6⟩ := Dom.C29_lca o.g o.idom o.hg o.hidom hv hr hb
  have ht' : Dom.run o.g o.idom F.bound (F.cfg o.cfg).succ F.entry = some t := ht
  rw [ht'] at e'
  simp only [Option.some.injEq] at e'
  subst e'
  rw [he] at h6
  intro a b ha hb'
  obtain ⟨c, h7, h8, h9, _⟩ := h6 a b ha hb'
  exact ⟨c, h7, h8, h9⟩

/-- `GVN::run` with the dominator analysis of the function -/
def gvnPass (o : Orders) (mv : L.Op → Bool) (profitable : Nat → Bool) (native : L.Op → Bool) (spec : L.Op → List (Opd L.C) → Bool) (F : L.F) : Option L.F :=
  match F.dom o with
  | none => none
  | some t => gvn mv ⟨domBlocks t, t.lca, t.dominate, profitable, native, spec⟩ F

/-- C41: global value numbering (whatever the walk orders of the hash containers, block frequencies and target) terminates, and the
function it produces behaves like the original, is well-formed, and has the same control-flow graph. -/
theorem C41_gvn (o : Orders) (hmv : Movable L mv) (profitable : Nat → Bool) (native : L.Op → Bool) {spec : L.Op → List (Opd L.C) → Bool} (hspec : SpecOk L spec)
    (F : L.F) (P : Proper F) (hb : F.bound ≤ 2 ^ 21) :
    ∃ G, gvnPass o mv profitable native spec F = some G ∧ Refines L F G ∧ Proper G ∧ Edge G = Edge F := by
  obtain ⟨t, ht, hd⟩ := dom_domOk o P hb
  obtain ⟨G, hG, h⟩ := gvn_ok hmv (cfg := ⟨domBlocks t, t.lca, t.dominate, profitable, native, spec⟩) hspec F P hd
  refine ⟨G, ?_, h⟩
  unfold gvnPass
  rw [ht]
  exact hG

end
end Cmmc.SSA

namespace Cmmc.SSA.Ex
open Cmmc.SSA

/-- opcodes of the example that may be executed speculatively: on two operands -/
def xspec (op : XOp) (args : List (Opd Int)) : Bool := xmv op && decide (args.length = 2)

theorem x_specOk : SpecOk X xspec := by
  intro op args args' h hl env vs m hv
  simp only [xspec, Bool.and_eq_true, decide_eq_true_eq] at h
  have hlen : args'.length = 2 := hl.length_eq ▸ h.2
  match args', hlen with
  | [a, b], _ =>
    simp only [evals] at hv
    cases ha : eval X env a with
    | none => rw [ha] at hv; simp at hv
    | some va =>
      cases hb : eval X env b with
      | none => rw [ha, hb] at hv; simp at hv
      | some vb =>
        rw [ha, hb] at hv
        simp only [Option.some.injEq] at hv
        subst hv
        have h1 := h.1
        cases op <;> first | exact ⟨_, rfl⟩ | simp [xmv] at h1

/-- `a * a` on both sides of a branch, `a + 1` before it and on one side -/
def diamond : Func XOp Int := mk
  [(0, ⟨[], [⟨9, .add, [.cst 2, .cst 3]⟩, ⟨10, .add, [.inst 9, .cst 1]⟩, ⟨11, .lt, [.inst 9, .cst 7]⟩], .cbr (.inst 11) 1 2⟩),
   (1, ⟨[], [⟨20, .mul, [.inst 9, .inst 9]⟩], .br 3⟩),
   (2, ⟨[], [⟨30, .mul, [.inst 9, .inst 9]⟩, ⟨31, .add, [.inst 9, .cst 1]⟩, ⟨32, .print, [.inst 31]⟩], .br 3⟩),
   (3, ⟨[⟨40, [(1, .inst 20), (2, .inst 30)]⟩], [], .ret (some (.inst 40))⟩)]

theorem diamond_proper : Proper diamond := (mk_proper _ (by decide +kernel)).1

/-- `gvnPass` at the example language -/
def xgvn (F : Func XOp Int) : Option (Func XOp Int) := gvnPass (L := X) ordId xmv (fun _ => true) (fun _ => true) xspec F

/-- the products are hoisted into block 0 as 41, the second sum is replaced by the first -/
example : (∃ G, xgvn diamond = some G ∧ Refines X diamond G) ∧
    (xgvn diamond).map (fun G => (G.blk 0).map (fun B => B.body.map Inst.id)) = some (some [9, 10, 11, 41]) ∧
    (xgvn diamond).map (fun G => (G.blk 2).map (fun B => B.body.map (fun i => (i.id, i.args)))) =
      some (some [(30, [.inst 9, .inst 9]), (31, [.inst 9, .cst 1]), (32, [.inst 10])]) ∧
    (xgvn diamond).map (fun G => (G.blk 3).map (fun B => B.phis.map Phi.inc)) = some (some [[(1, .inst 41), (2, .inst 41)]]) := by
  refine ⟨?_, by decide +kernel, by decide +kernel, by decide +kernel⟩
  obtain ⟨G, hG, h, _⟩ := C41_gvn (L := X) ordId x_movable (fun _ => true) (fun _ => true) x_specOk diamond diamond_proper (by decide +kernel)
  exact ⟨G, hG, h⟩
end Cmmc.SSA.Ex
