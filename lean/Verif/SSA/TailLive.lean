import Verif.SSA.TailWf
/-!
# TailCallEliminate: the new function is in SSA form (2)
-/
namespace Cmmc.SSA
section
variable {L : Lang} {V : Conv L} {N : TailNm} {S : TailSel L.Op L.C} {accOp : L.Op → Option L.C} {F : L.F} {f b k : Nat} {as : List L.C} {K : TailKind L.Op L.C} {B : L.B}
  {call : Inst L.Op L.C}

theorem TailOk.blk_e0 : (F.tailElim N V.param S as b k call.args K).blk N.e0 = some ⟨[], [], .br F.entry⟩ := by
  unfold Func.tailElim
  exact if_pos rfl

theorem TailOk.blk_cases (h : TailOk V N S accOp F f b k as K B call) (W : LiveWf F) {z : Nat} {Z : L.B} (hZ : (F.tailElim N V.param S as b k call.args K).blk z = some Z) :
    (z = N.e0 ∧ Z = ⟨[], [], .br F.entry⟩) ∨ ∃ T is extra, z ≠ N.e0 ∧ F.blk z = some T ∧ TailBlk N V.param S F b k as call.args K call.id z T Z is extra := by
  by_cases hz : z = N.e0
  · subst hz
    rw [TailOk.blk_e0] at hZ
    exact .inl ⟨rfl, (Option.some.inj hZ).symm⟩
  · right
    cases hT : F.blk z with
    | none =>
      unfold Func.tailElim at hZ
      simp only at hZ
      rw [if_neg hz, hT] at hZ
      simp at hZ
    | some T =>
      obtain ⟨T', is, extra, h1, h2⟩ := h.blkSpec W hT
      rw [h1] at hZ
      cases hZ
      exact ⟨T, is, extra, hz, rfl, h2⟩

theorem TailOk.edge_cases (h : TailOk V N S accOp F f b k as K B call) (W : LiveWf F) {z y : Nat} (e : Edge (F.tailElim N V.param S as b k call.args K) z y) :
    ((z = N.e0 ∨ z = b) ∧ y = F.entry) ∨ Edge F z y := by
  obtain ⟨Z, hZ, ht⟩ := e
  rcases h.blk_cases W hZ with ⟨rfl, rfl⟩ | ⟨T, is, extra, hz, hT, hb⟩
  · simp only [Term.targets, List.mem_singleton] at ht
    exact .inl ⟨.inl rfl, ht⟩
  · rcases hb.goes with ⟨h1, h2⟩ | ⟨h1, h2⟩
    · rw [h2] at ht
      simp only [Term.targets, List.mem_singleton] at ht
      exact .inl ⟨.inr h1, ht⟩
    · rw [h2] at ht
      exact .inr ⟨T, hT, ht⟩

theorem TailOk.edge_old (h : TailOk V N S accOp F f b k as K B call) (W : LiveWf F) {z y : Nat} (e : Edge F z y) : Edge (F.tailElim N V.param S as b k call.args K) z y := by
  have hzb : z ≠ b := by rintro rfl; exact h.noEdge y e
  obtain ⟨T, hT, ht⟩ := e
  obtain ⟨T', is, extra, h1, h2⟩ := h.blkSpec W hT
  rcases h2.goes with ⟨h3, _⟩ | ⟨_, h3⟩
  · exact absurd h3 hzb
  · exact ⟨T', h1, by rw [h3]; exact ht⟩

theorem TailOk.edge_b (h : TailOk V N S accOp F f b k as K B call) (W : LiveWf F) : Edge (F.tailElim N V.param S as b k call.args K) b F.entry := by
  obtain ⟨T', is, extra, h1, h2⟩ := h.blkSpec W h.hB
  rcases h2.goes with ⟨_, h3⟩ | ⟨h3, _⟩
  · exact ⟨T', h1, by rw [h3]; simp [Term.targets]⟩
  · exact absurd rfl h3

theorem TailOk.edge_e (h : TailOk V N S accOp F f b k as K B call) : Edge (F.tailElim N V.param S as b k call.args K) N.e0 F.entry :=
  ⟨_, TailOk.blk_e0, by simp [Term.targets]⟩

theorem TailOk.noE (h : TailOk V N S accOp F f b k as K B call) (W : LiveWf F) (y : Nat) : ¬ Edge F N.e0 y := fun e => h.names.e0 (W.toShape.edge_left e)

theorem TailOk.live_cases (h : TailOk V N S accOp F f b k as K B call) (W : LiveWf F) {z : Nat} (hz : Live (F.tailElim N V.param S as b k call.args K) z) : z = N.e0 ∨ Live F z := by
  refine path_ind (P := fun z => z = N.e0 ∨ Live F z) ?_ hz (.inl rfl)
  intro z z' e hz
  rcases h.edge_cases W e with ⟨_, rfl⟩ | e
  · exact .inr ⟨_, .single _⟩
  · rcases hz with rfl | hz
    · exact absurd e (h.noE W _)
    · exact .inr (hz.edge e)

theorem TailOk.live_old (h : TailOk V N S accOp F f b k as K B call) (W : LiveWf F) {z : Nat} (hz : Live F z) : Live (F.tailElim N V.param S as b k call.args K) z := by
  refine path_ind (P := fun z => Live (F.tailElim N V.param S as b k call.args K) z) ?_ hz ?_
  · intro z z' e hz
    exact hz.edge (h.edge_old W e)
  · exact Live.edge (⟨_, .single _⟩ : Live (F.tailElim N V.param S as b k call.args K) N.e0) h.edge_e

theorem TailOk.domi (h : TailOk V N S accOp F f b k as K B call) (W : LiveWf F) {d z : Nat} (hd : Domi F d z) (hz : z ≠ N.e0) : Domi (F.tailElim N V.param S as b k call.args K) d z := by
  refine domi_of_avoids (fun ⟨p, hp, hn⟩ => ?_)
  have : z = N.e0 ∨ Avoids F d z := by
    refine path_avoid (P := fun z => z = N.e0 ∨ Avoids F d z) ?_ hp hn (.inl rfl)
    intro z z' e hz hz'
    rcases h.edge_cases W e with ⟨_, rfl⟩ | e
    · exact .inr (Avoids.entry hz')
    · rcases hz with rfl | hz
      · exact absurd e (h.noE W _)
      · exact .inr (hz.edge e hz')
  rcases this with h1 | h1
  · exact hz h1
  · exact h1.not hd

theorem domi_first {Op C : Type} (F : Func Op C) (x : Nat) : Domi F F.entry x := by
  intro p hp
  cases hp with
  | single => simp
  | cons _ _ => simp

/-- the ids of a block of the new function -/
theorem TailBlk.mem_ids {param : L.C → Option Nat} {args : List (Opd L.C)} {cid y : Nat} {T T' : L.B} {is extra : List (Inst L.Op L.C)}
    (hb : TailBlk N param S F b k as args K cid y T T' is extra) {x : Nat} (hx : x ∈ T'.ids) :
    (y = F.entry ∧ x ∈ (N.phis param S as b args K).map Phi.id) ∨ x ∈ T.ids ∨ x = N.leaf y := by
  unfold Block.ids at hx
  rw [hb.phis, hb.body, List.map_append, List.map_append, List.map_map, List.map_map] at hx
  rcases List.mem_append.1 hx with hx | hx
  · rcases List.mem_append.1 hx with hx | hx
    · split at hx
      · rename_i e; exact .inl ⟨e, hx⟩
      · simp at hx
    · exact .inr (.inl (List.mem_append_left _ hx))
  · rcases List.mem_append.1 hx with hx | hx
    · refine .inr (.inl (List.mem_append_right _ ?_))
      have hx' : x ∈ is.map Inst.id := hx
      rcases hb.which with ⟨_, h1⟩ | ⟨_, h1⟩
      · rw [← h1]; exact hx'
      · rw [h1] at hx'
        obtain ⟨j, hj, e⟩ := List.mem_map.1 hx'
        exact List.mem_map.2 ⟨j, List.mem_of_mem_take hj, e⟩
    · obtain ⟨e, he, rfl⟩ := List.mem_map.1 hx
      rcases hb.ids e he with h1 | ⟨_, i, hi, h1, _⟩
      · exact .inr (.inr h1)
      · rw [h1]
        exact .inr (.inl (List.mem_append_right _ (List.mem_map_of_mem (List.mem_of_mem_drop hi))))

theorem TailNm.phi_id {param : L.C → Option Nat} {args : List (Opd L.C)} {x : Nat} (hx : x ∈ (N.phis param S as b args K).map Phi.id) : x = N.x1 ∨ x = N.x2 ∨ ∃ j, x = N.ps j := by
  obtain ⟨p, hp, rfl⟩ := List.mem_map.1 hx
  rcases TailNm.mem_phis hp with hp | ⟨j, c, o, _, _, rfl⟩
  · cases K <;> simp [TailNm.kphis] at hp
    · subst hp; exact .inl rfl
    · rcases hp with rfl | rfl
      · exact .inr (.inl rfl)
      · exact .inl rfl
  · exact .inr (.inr ⟨j, rfl⟩)

/-- old names keep their place, except for the call -/
theorem TailBlk.old_ids {param : L.C → Option Nat} {args : List (Opd L.C)} {y : Nat} {T T' : L.B} {is extra : List (Inst L.Op L.C)}
    (hb : TailBlk N param S F b k as args K call.id y T T' is extra) {x : Nat} (hx : x ∈ T.phis.map Phi.id ∨ x ∈ is.map Inst.id) : x ∈ T'.ids := by
  unfold Block.ids
  rw [hb.phis, hb.body, List.map_append, List.map_append, List.map_map, List.map_map]
  rcases hx with hx | hx
  · exact List.mem_append_left _ (List.mem_append_right _ hx)
  · exact List.mem_append_right _ (List.mem_append_left _ hx)

theorem TailOk.ids_nodup (h : TailOk V N S accOp F f b k as K B call) (W : LiveWf F) {y : Nat} {T T' : L.B} {is extra : List (Inst L.Op L.C)} (hT : F.blk y = some T)
    (hb : TailBlk N V.param S F b k as call.args K call.id y T T' is extra) : T'.ids.Nodup := by
  have hn := W.toShape.ids_nodup hT
  have hnew : ∀ x, x ∈ T.ids → x ≠ N.x1 ∧ x ≠ N.x2 ∧ (∀ j, x ≠ N.ps j) ∧ ∀ y, x ≠ N.leaf y := fun x hx => by
    have := h.names.used y T x hT (.inr hx)
    exact ⟨this.2.1, this.2.2.1, this.1, this.2.2.2⟩
  have hp1 : ∀ x ∈ T.phis.map Phi.id, x ∈ T.ids := fun x hx => List.mem_append_left _ hx
  have hp2 : ∀ x ∈ is.map Inst.id, x ∈ T.ids := by
    intro x hx
    refine List.mem_append_right _ ?_
    rcases hb.which with ⟨_, h1⟩ | ⟨_, h1⟩
    · rw [← h1]; exact hx
    · rw [h1] at hx
      obtain ⟨j, hj, e⟩ := List.mem_map.1 hx
      exact List.mem_map.2 ⟨j, List.mem_of_mem_take hj, e⟩
  have hsub : (T.phis.map Phi.id ++ is.map Inst.id).Nodup := by
    refine List.Nodup.sublist ?_ hn
    unfold Block.ids
    refine List.Sublist.append (List.Sublist.refl _) ?_
    rcases hb.which with ⟨_, h1⟩ | ⟨_, h1⟩
    · rw [h1]
    · rw [h1]
      exact (List.take_sublist k T.body).map _
  have hex : (extra.map Inst.id).Nodup ∧ ∀ x ∈ extra.map Inst.id, x ∉ T.phis.map Phi.id ++ is.map Inst.id ∧ x ≠ N.x1 ∧ x ≠ N.x2 ∧ ∀ j, x ≠ N.ps j := by
    refine ⟨?_, ?_⟩
    · rcases hb.one with h1 | ⟨e, h1⟩ <;> rw [h1] <;> simp
    · intro x hx
      obtain ⟨e, he, rfl⟩ := List.mem_map.1 hx
      rcases hb.ids e he with h1 | ⟨hyb, i, hi, h1, _⟩
      · refine ⟨fun hm => ?_, ?_, ?_, ?_⟩
        · have hm' : e.id ∈ T.ids := by
            rcases List.mem_append.1 hm with hm | hm
            · exact hp1 _ hm
            · exact hp2 _ hm
          exact (hnew _ hm').2.2.2 y h1
        · rw [h1]; exact (h.names.leafx y).1
        · rw [h1]; exact (h.names.leafx y).2
        · intro j; rw [h1]; exact h.names.leafps y j
      · have hiT : i.id ∈ T.ids := List.mem_append_right _ (List.mem_map_of_mem (List.mem_of_mem_drop hi))
        have hw := hnew _ hiT
        rw [h1]
        refine ⟨fun hm => ?_, hw.1, hw.2.1, hw.2.2.1⟩
        have his : is = T.body.take k := by
          rcases hb.which with ⟨h2, _⟩ | ⟨_, h2⟩
          · exact absurd hyb h2
          · exact h2
        rw [his] at hm
        unfold Block.ids at hn
        have hsplit : T.body.map Inst.id = (T.body.take k).map Inst.id ++ (T.body.drop k).map Inst.id := by rw [← List.map_append, List.take_append_drop]
        rw [hsplit, ← List.append_assoc, List.nodup_append] at hn
        refine hn.2.2 _ hm i.id ?_ rfl
        have : i ∈ T.body.drop k := by
          rw [← List.drop_drop] at hi
          exact List.mem_of_mem_drop hi
        exact List.mem_map_of_mem this
  unfold Block.ids
  rw [hb.phis, hb.body, List.map_append, List.map_append, List.map_map, List.map_map]
  have e1 : T.phis.map (Phi.id ∘ N.phi V.param) = T.phis.map Phi.id := rfl
  have e2 : is.map (Inst.id ∘ N.inst V.param) = is.map Inst.id := rfl
  rw [e1, e2, List.append_assoc, ← List.append_assoc (T.phis.map Phi.id)]
  have hhd : ∀ x ∈ (if y = F.entry then N.phis V.param S as b call.args K else []).map Phi.id, x = N.x1 ∨ x = N.x2 ∨ ∃ j, x = N.ps j := by
    intro x hx
    split at hx
    · exact TailNm.phi_id hx
    · simp at hx
  refine List.nodup_append.2 ⟨?_, List.nodup_append.2 ⟨hsub, hex.1, ?_⟩, ?_⟩
  · split
    · exact h.names.phis_nodup
    · simp
  · intro x hx z hz
    rintro rfl
    exact (hex.2 x hz).1 hx
  · intro x hx z hz
    rintro rfl
    have hne : x ≠ N.x1 ∧ x ≠ N.x2 ∧ ∀ j, x ≠ N.ps j := by
      rcases List.mem_append.1 hz with hz | hz
      · have : x ∈ T.ids := by
          rcases List.mem_append.1 hz with hz | hz
          · exact hp1 _ hz
          · exact hp2 _ hz
        exact ⟨(hnew x this).1, (hnew x this).2.1, (hnew x this).2.2.1⟩
      · exact (hex.2 x hz).2
    rcases hhd x hx with h1 | h1 | ⟨j, h1⟩
    · exact hne.1 h1
    · exact hne.2.1 h1
    · exact hne.2.2 j h1

theorem TailOk.shape (h : TailOk V N S accOp F f b k as K B call) (W : LiveWf F) : Shape (F.tailElim N V.param S as b k call.args K) := by
  have hS := W.toShape
  refine ⟨List.nodup_cons.2 ⟨h.names.e0, hS.nodup⟩, ?_, ?_, List.mem_cons_self .., ?_, ?_⟩
  · intro z Z hZ
    rcases h.blk_cases W hZ with ⟨rfl, _⟩ | ⟨T, _, _, _, hT, _⟩
    · exact List.mem_cons_self ..
    · exact List.mem_cons_of_mem _ (hS.listed z T hT)
  · intro z hz
    rcases List.mem_cons.1 hz with rfl | hz
    · exact ⟨_, TailOk.blk_e0⟩
    · obtain ⟨T, hT⟩ := hS.total z hz
      obtain ⟨T', _, _, h1, _⟩ := h.blkSpec W hT
      exact ⟨T', h1⟩
  · intro a c e
    rcases h.edge_cases W e with ⟨_, rfl⟩ | e
    · exact List.mem_cons_of_mem _ hS.entryIn
    · exact List.mem_cons_of_mem _ (hS.closed a c e)
  · rw [allIds_eq]
    refine nodup_flatMap_of_disjoint (List.nodup_cons.2 ⟨h.names.e0, hS.nodup⟩) ?_ ?_
    · intro z _
      cases hZ : (F.tailElim N V.param S as b k call.args K).blk z with
      | none => simp
      | some Z =>
        rcases h.blk_cases W hZ with ⟨_, rfl⟩ | ⟨T, is, extra, _, hT, hb⟩
        · simp [Block.ids]
        · exact h.ids_nodup W hT hb
    · intro z _ z' _ x hx hx'
      cases hZ : (F.tailElim N V.param S as b k call.args K).blk z with
      | none => rw [hZ] at hx; simp at hx
      | some Z =>
        cases hZ' : (F.tailElim N V.param S as b k call.args K).blk z' with
        | none => rw [hZ'] at hx'; simp at hx'
        | some Z' =>
          rw [hZ] at hx
          rw [hZ'] at hx'
          simp only at hx hx'
          rcases h.blk_cases W hZ with ⟨_, rfl⟩ | ⟨T, is, extra, _, hT, hb⟩
          · simp [Block.ids] at hx
          rcases h.blk_cases W hZ' with ⟨_, rfl⟩ | ⟨T2, is2, extra2, _, hT2, hb2⟩
          · simp [Block.ids] at hx'
          have hnew : ∀ {y : Nat} {T : L.B} {x : Nat}, F.blk y = some T → x ∈ T.ids → x ≠ N.x1 ∧ x ≠ N.x2 ∧ (∀ j, x ≠ N.ps j) ∧ ∀ y, x ≠ N.leaf y := fun hT hx => by
            have := h.names.used _ _ _ hT (.inr hx)
            exact ⟨this.2.1, this.2.2.1, this.1, this.2.2.2⟩
          rcases hb.mem_ids hx with ⟨h1, h2⟩ | h2 | h2 <;> rcases hb2.mem_ids hx' with ⟨h3, h4⟩ | h4 | h4
          · rw [h1, h3]
          · exfalso
            have := hnew hT2 h4
            rcases TailNm.phi_id h2 with e | e | ⟨j, e⟩
            · exact this.1 e
            · exact this.2.1 e
            · exact this.2.2.1 j e
          · exfalso
            rcases TailNm.phi_id h2 with e | e | ⟨j, e⟩
            · exact (h.names.leafx z').1 (h4.symm.trans e)
            · exact (h.names.leafx z').2 (h4.symm.trans e)
            · exact h.names.leafps z' j (h4.symm.trans e)
          · exfalso
            have := hnew hT h2
            rcases TailNm.phi_id h4 with e | e | ⟨j, e⟩
            · exact this.1 e
            · exact this.2.1 e
            · exact this.2.2.1 j e
          · exact defIn_unique hS.listed hS.unique ⟨T, hT, h2⟩ ⟨T2, hT2, h4⟩
          · exact absurd h4 ((hnew hT h2).2.2.2 z')
          · exfalso
            rcases TailNm.phi_id h4 with e | e | ⟨j, e⟩
            · exact (h.names.leafx z).1 (h2.symm.trans e)
            · exact (h.names.leafx z).2 (h2.symm.trans e)
            · exact h.names.leafps z j (h2.symm.trans e)
          · exact absurd h2 ((hnew hT2 h4).2.2.2 z)
          · exact h.names.leafInj _ _ (h2.symm.trans h4)

theorem TailOk.defIn_old (h : TailOk V N S accOp F f b k as K B call) (W : LiveWf F) {x d : Nat} (hd : DefIn F x d) (hx : x ≠ call.id) : DefIn (F.tailElim N V.param S as b k call.args K) x d := by
  obtain ⟨T, hT, hm⟩ := hd
  obtain ⟨T', is, extra, h1, hb⟩ := h.blkSpec W hT
  refine ⟨T', h1, ?_⟩
  rcases List.mem_append.1 hm with hm | hm
  · exact hb.old_ids (.inl hm)
  · rcases hb.which with ⟨_, h2⟩ | ⟨hdb, h2⟩
    · exact hb.old_ids (.inr (by rw [h2]; exact hm))
    · subst hdb
      have := Option.some.inj (h.hB.symm.trans hT)
      subst this
      rw [h.body, List.map_append, List.map_cons] at hm
      rcases List.mem_append.1 hm with hm | hm
      · exact hb.old_ids (.inr (by rw [h2]; exact hm))
      · rcases List.mem_cons.1 hm with hm | hm
        · exact absurd hm hx
        · obtain ⟨i, hi, rfl⟩ := List.mem_map.1 hm
          obtain ⟨e, he, hid⟩ := hb.keep rfl i hi
          rw [← hid]
          unfold Block.ids
          rw [hb.body, List.map_append]
          exact List.mem_append_right _ (List.mem_append_right _ (List.mem_map_of_mem he))

/-- the names of the header -/
theorem TailOk.defIn_hdr (h : TailOk V N S accOp F f b k as K B call) (W : LiveWf F) {x : Nat} (hx : x ∈ (N.phis V.param S as b call.args K).map Phi.id) :
    DefIn (F.tailElim N V.param S as b k call.args K) x F.entry := by
  obtain ⟨T, hT⟩ := W.total F.entry W.entryIn
  obtain ⟨T', is, extra, h1, hb⟩ := h.blkSpec W hT
  refine ⟨T', h1, ?_⟩
  unfold Block.ids
  rw [hb.phis, if_pos rfl, List.map_append]
  exact List.mem_append_left _ (List.mem_append_left _ hx)

theorem TailOk.ps_mem (h : TailOk V N S accOp F f b k as K B call) {j : Nat} {c : L.C} (hj : as[j]? = some c) : N.ps j ∈ (N.phis V.param S as b call.args K).map Phi.id := by
  have hlt : j < call.args.length := by rw [h.len]; exact (List.getElem?_eq_some_iff.1 hj).1
  exact List.mem_map.2 ⟨_, TailNm.arg_mem hj (List.getElem?_eq_getElem hlt), rfl⟩

theorem TailNm.x1_mem {args : List (Opd L.C)} {param : L.C → Option Nat} (h : K ≠ .plain) : N.x1 ∈ (N.phis param S as b args K).map Phi.id := by
  cases K with
  | plain => exact absurd rfl h
  | acc i l x c => exact List.mem_map.2 ⟨_, TailNm.kphi_mem (List.mem_singleton.2 rfl), rfl⟩
  | first x => exact List.mem_map.2 ⟨⟨N.x1, _⟩, TailNm.kphi_mem (List.mem_cons_of_mem _ (List.mem_singleton.2 rfl)), rfl⟩

theorem TailNm.x2_mem {args : List (Opd L.C)} {param : L.C → Option Nat} {x : Opd L.C} (h : K = .first x) : N.x2 ∈ (N.phis param S as b args K).map Phi.id := by
  subst h
  exact List.mem_map.2 ⟨⟨N.x2, _⟩, TailNm.kphi_mem (List.mem_cons_self ..), rfl⟩

/-- an operand of the old function where it is used in the new one -/
theorem TailOk.useOld (h : TailOk V N S accOp F f b k as K B call) (W : LiveWf F) {y : Nat} {T : L.B} (hT : F.blk y = some T) (hl : Live F y) {o : Opd L.C} (ho : o ∈ T.opds)
    (hp : ∀ x, o = .inst x → (∃ h, DefIn F x h ∧ Domi F h y) ∧ x ≠ call.id) {x : Nat} (hx : N.opd V.param o = .inst x) :
    ∃ d, DefIn (F.tailElim N V.param S as b k call.args K) x d ∧ Domi (F.tailElim N V.param S as b k call.args K) d y := by
  have hye : y ≠ N.e0 := by rintro rfl; exact h.names.e0 (W.listed _ _ hT)
  rcases TailNm.opd_inst hx with rfl | ⟨c, j, rfl, hc, rfl⟩
  · obtain ⟨⟨d, h1, h2⟩, h3⟩ := hp x rfl
    exact ⟨d, h.defIn_old W h1 h3, h.domi W h2 hye⟩
  · exact ⟨F.entry, h.defIn_hdr W (h.ps_mem (h.pars y T hT _ ho c j rfl hc)), h.domi W (domi_first F y) hye⟩

theorem TailOk.useHdr (h : TailOk V N S accOp F f b k as K B call) (W : LiveWf F) {y : Nat} (hy : y ≠ N.e0) {x : Nat} (hx : x ∈ (N.phis V.param S as b call.args K).map Phi.id) :
    ∃ d, DefIn (F.tailElim N V.param S as b k call.args K) x d ∧ Domi (F.tailElim N V.param S as b k call.args K) d y :=
  ⟨F.entry, h.defIn_hdr W hx, h.domi W (domi_first F y) hy⟩

/-- a header name that is defined in a block is a phi of that block -/
theorem TailOk.hdrOrder (h : TailOk V N S accOp F f b k as K B call) {y : Nat} {T T' : L.B} {is extra : List (Inst L.Op L.C)} (hT : F.blk y = some T)
    (hb : TailBlk N V.param S F b k as call.args K call.id y T T' is extra) {x : Nat} (hn : x = N.x1 ∨ x = N.x2 ∨ ∃ j, x = N.ps j) (hx : x ∈ T'.ids) : x ∈ T'.phis.map Phi.id := by
  rcases hb.mem_ids hx with ⟨h1, h2⟩ | h2 | h2
  · rw [hb.phis, if_pos h1, List.map_append]
    exact List.mem_append_left _ h2
  · exfalso
    have := h.names.used y T x hT (.inr h2)
    rcases hn with e | e | ⟨j, e⟩
    · exact this.2.1 e
    · exact this.2.2.1 e
    · exact this.1 j e
  · exfalso
    rcases hn with e | e | ⟨j, e⟩
    · exact (h.names.leafx y).1 (h2.symm.trans e)
    · exact (h.names.leafx y).2 (h2.symm.trans e)
    · exact h.names.leafps y j (h2.symm.trans e)

/-- an operand of the old function, in the order of a block of the new one -/
theorem TailOk.oldOrder (h : TailOk V N S accOp F f b k as K B call) {y : Nat} {T T' : L.B} {is extra pre : List (Inst L.Op L.C)} (hT : F.blk y = some T)
    (hb : TailBlk N V.param S F b k as call.args K call.id y T T' is extra) {o : Opd L.C} (hp : Pt F call.id y T pre o) {x : Nat} (hx : N.opd V.param o = .inst x) (hm : x ∈ T'.ids) :
    x ∈ T'.phis.map Phi.id ∨ x ∈ pre.map Inst.id := by
  rcases TailNm.opd_inst hx with rfl | ⟨c, j, rfl, hc, rfl⟩
  · have hT2 : x ∈ T.ids := by
      have hu := h.names.used y T x hT (.inl hp.1)
      rcases hb.mem_ids hm with ⟨_, h2⟩ | h2 | h2
      · exfalso
        rcases TailNm.phi_id h2 with e | e | ⟨j, e⟩
        · exact hu.2.1 e
        · exact hu.2.2.1 e
        · exact hu.1 j e
      · exact h2
      · exact absurd h2 (hu.2.2.2 y)
    rcases (hp.2 x rfl).2.2 hT2 with h1 | h1
    · left
      rw [hb.phis, List.map_append, List.map_map]
      exact List.mem_append_right _ h1
    · exact .inr h1
  · exact .inl (h.hdrOrder hT hb (.inr (.inr ⟨j, rfl⟩)) hm)

theorem split_map {α β : Type} {g : α → β} {l : List α} {pre : List β} {i : β} {post : List β} (h : l.map g = pre ++ i :: post) :
    ∃ p a s, l = p ++ a :: s ∧ p.map g = pre ∧ g a = i ∧ s.map g = post := by
  obtain ⟨p, r, h1, h2, h3⟩ := List.map_eq_append_iff.1 h
  obtain ⟨a, s, h4, h5, h6⟩ := List.map_eq_cons_iff.1 h3
  exact ⟨p, a, s, by rw [h1, h4], h2, h5, h6⟩

/-- every instruction of a block of the new function comes from the old one, or is the new one at the end -/
theorem TailBlk.split {param : L.C → Option Nat} {args : List (Opd L.C)} {cid y : Nat} {T T' : L.B} {is extra : List (Inst L.Op L.C)}
    (hb : TailBlk N param S F b k as args K cid y T T' is extra) {pre post : List (Inst L.Op L.C)} {i : Inst L.Op L.C} (h : T'.body = pre ++ i :: post) :
    (∃ p a s, is = p ++ a :: s ∧ p.map (N.inst param) = pre ∧ N.inst param a = i) ∨ (i ∈ extra ∧ pre = is.map (N.inst param)) := by
  rw [hb.body] at h
  rcases hb.one with he | ⟨e, he⟩
  · rw [he, List.append_nil] at h
    obtain ⟨p, a, s, h1, h2, h3, _⟩ := split_map h
    exact .inl ⟨p, a, s, h1, h2, h3⟩
  · rw [he] at h
    rcases List.eq_nil_or_concat post with hp | ⟨post', z, hp⟩
    · subst hp
      obtain ⟨h1, h2⟩ := List.append_inj' h rfl
      right
      refine ⟨?_, h1.symm⟩
      rw [he]
      simp only [List.cons.injEq, and_true] at h2
      rw [h2]; simp
    · subst hp
      have h' : is.map (N.inst param) ++ [e] = (pre ++ i :: post') ++ [z] := by rw [h]; simp
      obtain ⟨h1, _⟩ := List.append_inj' h' rfl
      obtain ⟨p, a, s, h2, h3, h4, _⟩ := split_map h1
      exact .inl ⟨p, a, s, h2, h3, h4⟩

/-- **The new function is in SSA form.** -/
theorem TailOk.liveWf (h : TailOk V N S accOp F f b k as K B call) (W : LiveWf F) : LiveWf (F.tailElim N V.param S as b k call.args K) := by
  have hlive : ∀ {z : Nat}, z ≠ N.e0 → Live (F.tailElim N V.param S as b k call.args K) z → Live F z := by
    intro z hz hl
    rcases h.live_cases W hl with h1 | h1
    · exact absurd h1 hz
    · exact h1
  -- instructions of the old function
  have hpre : ∀ {z : Nat} {T T' : L.B} {is extra p s : List (Inst L.Op L.C)} {a : Inst L.Op L.C}, F.blk z = some T → Live F z → TailBlk N V.param S F b k as call.args K call.id z T T' is extra → is = p ++ a :: s →
      ∀ o ∈ a.args, Pt F call.id z T p o := by
    intro z T T' is extra p s a hT hl hb his o ho
    rcases hb.which with ⟨h1, h2⟩ | ⟨h1, h2⟩
    · exact h.pt W hT hl (post := s) (by rw [← h2, his]) (fun e => absurd e h1) ho
    · subst h1
      refine h.pt W hT hl (post := s ++ T.body.drop k) (i := a) ?_ (fun _ => ?_) ho
      · have : T.body = T.body.take k ++ T.body.drop k := (List.take_append_drop k T.body).symm
        rw [← h2, his] at this
        exact this.trans (by rw [List.append_assoc, List.cons_append])
      · have : (T.body.take k).length ≤ k := List.length_take_le k T.body
        rw [← h2, his] at this
        simp only [List.length_append, List.length_cons] at this
        omega
  have huse : ∀ z Z x, (F.tailElim N V.param S as b k call.args K).blk z = some Z → Live (F.tailElim N V.param S as b k call.args K) z →
      ((∃ i ∈ Z.body, Opd.inst x ∈ i.args) ∨ Opd.inst x ∈ Z.term.args) → ∃ d, DefIn (F.tailElim N V.param S as b k call.args K) x d ∧ Domi (F.tailElim N V.param S as b k call.args K) d z := by
    intro z Z x hZ hl hu
    rcases h.blk_cases W hZ with ⟨_, rfl⟩ | ⟨T, is, extra, hz, hT, hb⟩
    · simp [Term.args] at hu
    · have hl' := hlive hz hl
      have hextra : ∀ e ∈ extra, Opd.inst x ∈ e.args → ∃ d, DefIn (F.tailElim N V.param S as b k call.args K) x d ∧ Domi (F.tailElim N V.param S as b k call.args K) d z := by
        intro e he hx
        rcases hb.ops e he _ hx with ⟨hc, hK⟩ | ⟨o', ho', hm, hpt⟩
        · rcases hc with hc | ⟨hc, y, hK2⟩
          · cases hc; exact h.useHdr W hz (TailNm.x1_mem hK)
          · cases hc; exact h.useHdr W hz (TailNm.x2_mem hK2)
        · exact h.useOld W hT hl' hm (fun y hy => ⟨((hpt hl').2 y hy).1, ((hpt hl').2 y hy).2.1⟩) ho'.symm
      rcases hu with ⟨i, hi, hx⟩ | hx
      · obtain ⟨pre, post, hsplit⟩ := List.append_of_mem hi
        rcases hb.split hsplit with ⟨p, a, s, h1, _, rfl⟩ | ⟨h1, _⟩
        · simp only [TailNm.inst] at hx
          obtain ⟨o, ho, hox⟩ := List.mem_map.1 hx
          have hpt := hpre hT hl' hb h1 o ho
          exact h.useOld W hT hl' hpt.1 (fun y hy => ⟨(hpt.2 y hy).1, (hpt.2 y hy).2.1⟩) hox
        · exact hextra i h1 hx
      · rcases hb.term _ hx with ⟨e, he, hx'⟩ | ⟨o', ho', hm, hpt⟩
        · cases hx'
          refine ⟨z, ⟨Z, hZ, ?_⟩, domi_self _ z⟩
          unfold Block.ids
          rw [hb.body, List.map_append]
          exact List.mem_append_right _ (List.mem_append_right _ (List.mem_map_of_mem he))
        · exact h.useOld W hT hl' (mem_opds_use (.inr hm)) (fun y hy => ⟨((hpt hl').2 y hy).1, ((hpt hl').2 y hy).2.1⟩) ho'.symm
  -- sources of phis
  have hsrc : ∀ {p : Phi L.C}, p ∈ N.phis V.param S as b call.args K → ∃ o o', p.inc = [(N.e0, o), (b, o')] := by
    intro p hp
    rcases TailNm.mem_phis hp with hp | ⟨j, c, o, _, _, rfl⟩
    · cases K <;> simp [TailNm.kphis] at hp
      · subst hp; exact ⟨_, _, rfl⟩
      · rcases hp with rfl | rfl <;> exact ⟨_, _, rfl⟩
    · exact ⟨_, _, rfl⟩
  have hcases : ∀ {z : Nat} {Z : L.B} {p : Phi L.C}, (F.tailElim N V.param S as b k call.args K).blk z = some Z → p ∈ Z.phis →
      z ≠ N.e0 ∧ ∃ T, F.blk z = some T ∧ ((z = F.entry ∧ p ∈ N.phis V.param S as b call.args K) ∨ z ≠ F.entry ∧ ∃ p0 ∈ T.phis, p = N.phi V.param p0) := by
    intro z Z p hZ hp
    rcases h.blk_cases W hZ with ⟨_, rfl⟩ | ⟨T, is, extra, hz, hT, hb⟩
    · simp at hp
    · refine ⟨hz, T, hT, ?_⟩
      rw [hb.phis] at hp
      by_cases he : z = F.entry
      · left
        refine ⟨he, ?_⟩
        rw [if_pos he, W.entryPhis T (he ▸ hT)] at hp
        simpa using hp
      · right
        refine ⟨he, ?_⟩
        rw [if_neg he, List.nil_append, List.mem_map] at hp
        obtain ⟨p0, h1, h2⟩ := hp
        exact ⟨p0, h1, h2.symm⟩
  have hinc : ∀ {p0 : Phi L.C} {q : Nat} {v : Opd L.C}, (q, v) ∈ (N.phi V.param p0).inc ↔ ∃ v0, (q, v0) ∈ p0.inc ∧ N.opd V.param v0 = v := by
    intro p0 q v
    simp only [TailNm.phi, List.mem_map, Prod.mk.injEq]
    constructor
    · rintro ⟨⟨q', v'⟩, h1, h2, h3⟩; subst h2; exact ⟨v', h1, h3⟩
    · rintro ⟨v0, h1, h2⟩; exact ⟨(q, v0), h1, rfl, h2⟩
  refine { h.shape W with entryPhis := ?_, inOrder := ?_, use := huse, phiUse := ?_, phiPred := ?_, phiAll := ?_, phiDead := ?_ }
  · intro Z hZ
    have hZ' : (F.tailElim N V.param S as b k call.args K).blk N.e0 = some Z := hZ
    rw [TailOk.blk_e0] at hZ'
    cases hZ'
    rfl
  · -- inOrder
    intro z Z hZ hl
    rcases h.blk_cases W hZ with ⟨_, rfl⟩ | ⟨T, is, extra, hz, hT, hb⟩
    · exact ⟨fun pre i post e => by simp at e, fun x hx => by simp [Term.args] at hx⟩
    · have hl' := hlive hz hl
      have hids : ∀ l : List (Inst L.Op L.C), (l.map (N.inst V.param)).map Inst.id = l.map Inst.id := fun l => by rw [List.map_map]; rfl
      refine ⟨?_, ?_⟩
      · intro pre i post hsplit x hx hm
        rcases hb.split hsplit with ⟨p, a, s, h1, rfl, rfl⟩ | ⟨h1, rfl⟩
        · simp only [TailNm.inst] at hx
          obtain ⟨o, ho, hox⟩ := List.mem_map.1 hx
          rw [hids]
          exact h.oldOrder hT hb (hpre hT hl' hb h1 o ho) hox hm
        · rw [hids]
          rcases hb.ops i h1 _ hx with ⟨hc, hK⟩ | ⟨o', ho', _, hpt⟩
          · left
            refine h.hdrOrder hT hb ?_ hm
            rcases hc with hc | ⟨hc, _⟩ <;> cases hc
            · exact .inl rfl
            · exact .inr (.inl rfl)
          · exact h.oldOrder hT hb (hpt hl') ho'.symm hm
      · intro x hx hm
        rcases hb.term _ hx with ⟨e, he, hx'⟩ | ⟨o', ho', _, hpt⟩
        · cases hx'
          right
          rw [hb.body, List.map_append]
          exact List.mem_append_right _ (List.mem_map_of_mem he)
        · rcases h.oldOrder hT hb (hpt hl') ho'.symm hm with h1 | h1
          · exact .inl h1
          · right
            rw [hb.body, List.map_append, hids]
            exact List.mem_append_left _ h1
  · -- phiUse
    intro z Z p q x hZ hl hp hq hlq
    obtain ⟨hz, T, hT, hc⟩ := hcases hZ hp
    have hl' := hlive hz hl
    rcases hc with ⟨rfl, hp'⟩ | ⟨_, p0, hp0, rfl⟩
    · have hbe : b ≠ N.e0 := fun e => h.e0b e.symm
      rcases TailNm.mem_phis hp' with hk | ⟨j, c, o, _, hoj, rfl⟩
      · cases K with
        | plain => simp [TailNm.kphis] at hk
        | acc i l y c =>
          have : p = ⟨N.x1, [(N.e0, .cst c), (b, .inst i.id)]⟩ := by simpa [TailNm.kphis] using hk
          subst this
          simp only [List.mem_cons, Prod.mk.injEq, List.not_mem_nil, or_false, reduceCtorEq, and_false, false_or] at hq
          obtain ⟨rfl, hx⟩ := hq
          cases hx
          have hsp := tailKind_spec h.kind
          refine ⟨q, h.defIn_old W ⟨B, h.hB, List.mem_append_right _ (List.mem_map_of_mem (by rw [h.body, hsp.1]; simp))⟩ ?_, domi_self _ q⟩
          intro e
          have := (h.once W).2.2
          rw [hsp.1] at this
          simp [e] at this
        | first y =>
          obtain ⟨T', is, extra, hT', hb⟩ := h.blkSpec W h.hB
          have hleaf : DefIn (F.tailElim N V.param S as b k call.args (.first y)) (N.leaf b) b := by
            have hG := h.blk h.hB
            rw [if_neg h.bne] at hG
            refine ⟨_, hG, ?_⟩
            unfold TailNm.block
            rw [if_pos rfl]
            unfold Block.ids
            simp [TailNm.rest]
          rcases List.mem_cons.1 hk with rfl | hk
          · simp at hq
          · rw [List.mem_singleton] at hk
            subst hk
            simp only [List.mem_cons, Prod.mk.injEq, List.not_mem_nil, or_false, reduceCtorEq, and_false, false_or] at hq
            obtain ⟨rfl, hx⟩ := hq
            cases hx
            exact ⟨q, hleaf, domi_self _ q⟩
      · simp only [List.mem_cons, Prod.mk.injEq, List.not_mem_nil, or_false, reduceCtorEq, and_false, false_or] at hq
        obtain ⟨rfl, hx⟩ := hq
        have hlb := hlive hbe hlq
        have ho := List.mem_of_getElem? hoj
        have hpt := h.pt W h.hB hlb (pre := B.body.take k) (post := B.body.drop (k + 1)) h.body (fun _ => List.length_take_le _ _) ho
        exact h.useOld W h.hB hlb hpt.1 (fun y hy => ⟨(hpt.2 y hy).1, (hpt.2 y hy).2.1⟩) hx.symm
    · obtain ⟨v0, hv0, hv⟩ := hinc.1 hq
      have hqe : q ≠ N.e0 := by
        rintro rfl
        exact h.noE W _ (W.phiPred z T p0 hT hl' hp0 _ _ hv0)
      have hlq' := hlive hqe hlq
      have hTq := W.phiPred z T p0 hT hl' hp0 _ _ hv0
      obtain ⟨Tq, hTq', _⟩ := hTq
      rcases TailNm.opd_inst hv with rfl | ⟨c, j, rfl, hc, rfl⟩
      · obtain ⟨d, h1, h2⟩ := W.phiUse z T p0 q x hT hl' hp0 hv0 hlq'
        refine ⟨d, h.defIn_old W h1 ?_, h.domi W h2 hqe⟩
        rintro rfl
        have := defIn_unique W.listed W.unique h1 h.call_def
        subst this
        have := h.only hlq' h2
        subst this
        exact h.noEdge z (W.phiPred z T p0 hT hl' hp0 _ _ hv0)
      · exact h.useHdr W hqe (h.ps_mem (h.pars z T hT _ (mem_opds_phi hp0 hv0) c j rfl hc))
  · -- phiPred
    intro z Z p hZ hl hp q v hq
    obtain ⟨hz, T, hT, hc⟩ := hcases hZ hp
    rcases hc with ⟨rfl, hp'⟩ | ⟨_, p0, hp0, rfl⟩
    · obtain ⟨o, o', hi⟩ := hsrc hp'
      rw [hi] at hq
      simp only [List.mem_cons, Prod.mk.injEq, List.not_mem_nil, or_false] at hq
      rcases hq with ⟨rfl, _⟩ | ⟨rfl, _⟩
      · exact h.edge_e
      · exact h.edge_b W
    · obtain ⟨v0, hv0, _⟩ := hinc.1 hq
      exact h.edge_old W (W.phiPred z T p0 hT (hlive hz hl) hp0 _ _ hv0)
  · -- phiAll
    intro z Z p q hZ hl hp e hlq
    obtain ⟨hz, T, hT, hc⟩ := hcases hZ hp
    rcases hc with ⟨rfl, hp'⟩ | ⟨hze, p0, hp0, rfl⟩
    · obtain ⟨o, o', hi⟩ := hsrc hp'
      rw [hi]
      rcases h.edge_cases W e with ⟨hq, _⟩ | e
      · rcases hq with rfl | rfl
        · exact ⟨o, by simp⟩
        · exact ⟨o', by simp⟩
      · exact absurd e (h.noEntry q)
    · rcases h.edge_cases W e with ⟨_, hq⟩ | e
      · exact absurd hq hze
      · have hqe : q ≠ N.e0 := by rintro rfl; exact h.noE W _ e
        obtain ⟨v, hv⟩ := W.phiAll z T p0 q hT (hlive hz hl) hp0 e (hlive hqe hlq)
        exact ⟨_, hinc.2 ⟨v, hv, rfl⟩⟩
  · -- phiDead
    intro z Z p p' q v hZ hl hp hp2 hq
    obtain ⟨hz, T, hT, hc⟩ := hcases hZ hp
    obtain ⟨_, T2, hT2, hc2⟩ := hcases hZ hp2
    rw [hT] at hT2
    cases hT2
    rcases hc with ⟨rfl, hp'⟩ | ⟨hze, p0, hp0, rfl⟩
    · rcases hc2 with ⟨_, hp2'⟩ | ⟨hze, _⟩
      · obtain ⟨o, o', hi⟩ := hsrc hp'
        obtain ⟨o2, o2', hi2⟩ := hsrc hp2'
        rw [hi] at hq
        rw [hi2]
        simp only [List.mem_cons, Prod.mk.injEq, List.not_mem_nil, or_false] at hq ⊢
        rcases hq with ⟨rfl, _⟩ | ⟨rfl, _⟩
        · exact ⟨o2, .inl ⟨rfl, rfl⟩⟩
        · exact ⟨o2', .inr ⟨rfl, rfl⟩⟩
      · exact absurd rfl hze
    · rcases hc2 with ⟨h1, _⟩ | ⟨_, p1, hp1, rfl⟩
      · exact absurd h1 hze
      · obtain ⟨v0, hv0, _⟩ := hinc.1 hq
        obtain ⟨v1, hv1⟩ := W.phiDead z T p0 p1 q v0 hT (hlive hz hl) hp0 hp1 hv0
        exact ⟨_, hinc.2 ⟨v1, hv1, rfl⟩⟩

end
end Cmmc.SSA
