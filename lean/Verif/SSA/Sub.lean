import Verif.SSA.Ssa
/-!
# Replacing uses keeps functions well-formed
-/
namespace Cmmc.SSA
section
variable {Op C : Type} {F : Func Op C}

/-- `y` is defined before `x`: in a block strictly dominating `x`'s (live) block, or earlier in the same block -/
def Before (F : Func Op C) (y x : Nat) : Prop :=
  (∃ dy dx, DefIn F y dy ∧ DefIn F x dx ∧ dy ≠ dx ∧ Live F dx ∧ Domi F dy dx) ∨
  (∃ d D l₁ l₂ l₃, F.blk d = some D ∧ D.ids = l₁ ++ y :: l₂ ++ x :: l₃)

/-- the replacement of `x` is a constant, `x` itself, or something defined before it -/
def Earlier (F : Func Op C) (σ : Nat → Opd C) : Prop := ∀ x y, σ x = .inst y → y = x ∨ Before F y x

/-- earlier in the block: a phi, or before `x` in the body -/
theorem before_split {D : Block Op C} (hn : D.ids.Nodup) {x y : Nat} {l₁ l₂ l₃ : List Nat} (h : D.ids = l₁ ++ y :: l₂ ++ x :: l₃) :
    (x ∈ D.phis.map Phi.id → y ∈ D.phis.map Phi.id) ∧
    ∀ k, x ∈ (D.body.take k).map Inst.id → y ∈ D.phis.map Phi.id ∨ y ∈ (D.body.take k).map Inst.id := by
  unfold Block.ids at h hn
  have hxl : ∀ {a b : List Nat}, a ++ b = l₁ ++ y :: l₂ ++ x :: l₃ → (a ++ b).Nodup → x ∈ a → y ∈ a := by
    intro a b e hn hx
    rw [List.append_eq_append_iff] at e
    rcases e with ⟨c, e1, e2⟩ | ⟨c, e1, e2⟩
    · -- a ++ c = l₁ ++ y :: l₂
      rw [e2] at hn
      rw [List.nodup_append] at hn
      exact absurd rfl (hn.2.2 x hx x (by simp))
    · rw [e1]; simp
  refine ⟨fun hx => hxl h hn hx, ?_⟩
  intro k hx
  have e : D.phis.map Phi.id ++ D.body.map Inst.id = (D.phis.map Phi.id ++ (D.body.take k).map Inst.id) ++ (D.body.drop k).map Inst.id := by
    rw [List.append_assoc, ← List.map_append, List.take_append_drop]
  rw [e] at h hn
  exact List.mem_append.mp (hxl h hn (List.mem_append.mpr (.inr hx)))

theorem Before.avail (P : Proper F) {x y b k : Nat} (h : Before F y x) (hx : Avail F b k x) : Avail F b k y := by
  obtain ⟨dx', hdx', hdom, hin⟩ := hx
  rcases h with ⟨dy, dx, hy, hx, hne, hlive, hd⟩ | ⟨d, D, l₁, l₂, l₃, hD, hids⟩
  · have := P.home hdx' hx
    subst this
    refine ⟨dy, hy, hd.trans hdom, fun e => ?_⟩
    subst e
    exact absurd (hd.antisymm hdom hlive) hne
  · have hxd : DefIn F x d := ⟨D, hD, by rw [hids]; simp⟩
    have := P.home hdx' hxd
    subst this
    refine ⟨dx', ⟨D, hD, by rw [hids]; simp⟩, hdom, fun e => ?_⟩
    obtain ⟨B, hB, hm⟩ := hin e
    subst e
    have := Option.some.inj (hB.symm.trans hD)
    subst this
    refine ⟨B, hB, ?_⟩
    obtain ⟨h1, h2⟩ := before_split (P.block_ids hB) hids
    rcases hm with hm | hm
    · exact .inl (h1 hm)
    · exact h2 k hm

@[simp] theorem Block.sub_ids (B : Block Op C) (σ : Nat → Opd C) : (B.sub σ).ids = B.ids := by
  simp [Block.ids, Block.sub, Function.comp_def, Phi.sub, Inst.sub]

@[simp] theorem Term.sub_targets (t : Term C) (σ : Nat → Opd C) : (t.sub σ).targets = t.targets := by
  cases t <;> rfl

theorem Term.sub_args (t : Term C) (σ : Nat → Opd C) : (t.sub σ).args = t.args.map (Opd.sub σ) := by
  cases t with
  | ret v => cases v <;> rfl
  | br _ => rfl
  | cbr _ _ _ => rfl
  | sw _ _ _ => rfl
  | unreachable => rfl

theorem Func.sub_edge (σ : Nat → Opd C) : Edge (F.sub σ) = Edge F := by
  funext a b
  unfold Edge Func.sub
  simp only [Option.map_eq_some_iff, eq_iff_iff]
  constructor
  · rintro ⟨_, ⟨B, hB, rfl⟩, h⟩
    exact ⟨B, hB, by simpa [Block.sub] using h⟩
  · rintro ⟨B, hB, h⟩
    exact ⟨_, ⟨B, hB, rfl⟩, by simpa [Block.sub] using h⟩

theorem Func.sub_live (σ : Nat → Opd C) (b : Nat) : Live (F.sub σ) b ↔ Live F b := by
  unfold Live; rw [Func.sub_edge]; rfl

theorem Func.sub_domi (σ : Nat → Opd C) (a b : Nat) : Domi (F.sub σ) a b ↔ Domi F a b := by
  unfold Domi; rw [Func.sub_edge]; rfl

theorem Func.sub_defIn (σ : Nat → Opd C) (i b : Nat) : DefIn (F.sub σ) i b ↔ DefIn F i b := by
  unfold DefIn Func.sub
  simp only [Option.map_eq_some_iff]
  constructor
  · rintro ⟨_, ⟨B, hB, rfl⟩, h⟩; exact ⟨B, hB, by simpa using h⟩
  · rintro ⟨B, hB, h⟩; exact ⟨_, ⟨B, hB, rfl⟩, by simpa using h⟩

theorem Func.sub_avail (σ : Nat → Opd C) {b k x : Nat} : Avail (F.sub σ) b k x ↔ Avail F b k x := by
  unfold Avail
  simp only [Func.sub_defIn, Func.sub_domi]
  constructor
  · rintro ⟨d, h1, h2, h3⟩
    refine ⟨d, h1, h2, fun e => ?_⟩
    obtain ⟨B, hB, hm⟩ := h3 e
    simp only [Func.sub, Option.map_eq_some_iff] at hB
    obtain ⟨B', hB', rfl⟩ := hB
    refine ⟨B', hB', ?_⟩
    simpa [Block.sub, Function.comp_def, Phi.sub, Inst.sub, ← List.map_take] using hm
  · rintro ⟨d, h1, h2, h3⟩
    refine ⟨d, h1, h2, fun e => ?_⟩
    obtain ⟨B, hB, hm⟩ := h3 e
    refine ⟨B.sub σ, by simp [Func.sub, hB], ?_⟩
    simpa [Block.sub, Function.comp_def, Phi.sub, Inst.sub, ← List.map_take] using hm

theorem sub_blk {σ : Nat → Opd C} {b : Nat} {B : Block Op C} (h : (F.sub σ).blk b = some B) : ∃ B', F.blk b = some B' ∧ B = B'.sub σ := by
  simp only [Func.sub, Option.map_eq_some_iff] at h
  obtain ⟨B', h1, h2⟩ := h
  exact ⟨B', h1, h2.symm⟩

theorem mem_sub {σ : Nat → Opd C} {y : Nat} {os : List (Opd C)} (h : Opd.inst y ∈ os.map (Opd.sub σ)) : ∃ x, Opd.inst x ∈ os ∧ σ x = .inst y := by
  obtain ⟨o, ho, e⟩ := List.mem_map.mp h
  cases o with
  | cst c => simp [Opd.sub] at e
  | inst x => exact ⟨x, ho, e⟩

/-- `y` is defined before `x`: it has a home, which dominates `x`'s when that is live, and is live if `x`'s is -/
theorem Before.home (P : Proper F) {x y d : Nat} (h : Before F y x) (hx : DefIn F x d) : ∃ e, DefIn F y e ∧ Domi F e d ∧ (Live F d → Live F e) := by
  rcases h with ⟨dy, dx, hy, hx', hne, hlive, hd⟩ | ⟨d', D, l₁, l₂, l₃, hD, hids⟩
  · have := P.home hx hx'
    subst this
    exact ⟨dy, hy, hd, fun h => hd.live h⟩
  · have hxd : DefIn F x d' := ⟨D, hD, by rw [hids]; simp⟩
    have := P.home hx hxd
    subst this
    exact ⟨d, ⟨D, hD, by rw [hids]; simp⟩, Dom.dominates_refl, id⟩

/-- replacing uses by earlier definitions keeps the function proper -/
theorem proper_sub (P : Proper F) {σ : Nat → Opd C} (hσ : Earlier F σ) : Proper (F.sub σ) := by
  have home : ∀ {x y d}, σ x = .inst y → DefIn F x d → ∃ e, DefIn F y e ∧ Domi F e d ∧ (Live F d → Live F e) := by
    intro x y d e hd
    rcases hσ x y e with rfl | h
    · exact ⟨d, hd, Dom.dominates_refl, id⟩
    · exact h.home P hd
  -- in-block order
  have order : ∀ {b B x y k}, F.blk b = some B → σ x = .inst y → (∃ h, DefIn F x h) → (∀ h, Live F b → DefIn F x h → Domi F h b) →
      (x ∈ B.ids → x ∈ B.phis.map Phi.id ∨ x ∈ (B.body.take k).map Inst.id) → y ∈ B.ids →
      y ∈ B.phis.map Phi.id ∨ y ∈ (B.body.take k).map Inst.id := by
    intro b B x y k hB e hex hdom hx hy
    rcases hσ x y e with rfl | h
    · exact hx hy
    · have hyb : DefIn F y b := ⟨B, hB, hy⟩
      rcases h with ⟨dy, dx, hy', hx', hne, hlive, hd⟩ | ⟨d', D, l₁, l₂, l₃, hD, hids⟩
      · have := P.home hyb hy'
        subst this
        by_cases hb : Live F b
        · exact absurd (hd.antisymm (hdom dx hb hx') hlive) hne
        · exact absurd (hd.live hlive) hb
      · have := P.home hyb ⟨D, hD, by rw [hids]; simp⟩
        subst this
        have := Option.some.inj (hD.symm.trans hB)
        subst this
        obtain ⟨h1, h2⟩ := before_split (P.block_ids hB) hids
        rcases hx (by rw [hids]; simp) with hm | hm
        · exact .inl (h1 hm)
        · exact h2 k hm
  have phimem : ∀ {B : Block Op C} {p}, p ∈ (B.sub σ).phis → ∃ p' ∈ B.phis, p = p'.sub σ := by
    intro B p hp
    obtain ⟨p', h1, h2⟩ := List.mem_map.mp hp
    exact ⟨p', h1, h2.symm⟩
  have incmem : ∀ {p : Phi C} {q v}, (q, v) ∈ (p.sub σ).inc → ∃ v', (q, v') ∈ p.inc ∧ v = v'.sub σ := by
    intro p q v h
    obtain ⟨⟨q', v'⟩, h1, h2⟩ := List.mem_map.mp h
    simp only [Prod.mk.injEq] at h2
    obtain ⟨rfl, rfl⟩ := h2
    exact ⟨v', h1, rfl⟩
  have opmem : ∀ {p : Phi C} {y}, Opd.inst y ∈ (p.sub σ).ops → ∃ x, Opd.inst x ∈ p.ops ∧ σ x = .inst y := by
    intro p y h
    have : (p.sub σ).ops = p.ops.map (Opd.sub σ) := by simp [Phi.ops, Phi.sub, Function.comp_def]
    rw [this] at h
    exact mem_sub h
  have useof : ∀ {B : Block Op C} {y}, ((∃ i ∈ (B.sub σ).body, Opd.inst y ∈ i.args) ∨ Opd.inst y ∈ (B.sub σ).term.args) →
      ∃ x, σ x = .inst y ∧ ((∃ i ∈ B.body, Opd.inst x ∈ i.args) ∨ Opd.inst x ∈ B.term.args) := by
    intro B y h
    rcases h with ⟨i, hi, hx⟩ | hx
    · obtain ⟨i', hi', rfl⟩ := List.mem_map.mp hi
      obtain ⟨x, hx, e⟩ := mem_sub hx
      exact ⟨x, e, .inl ⟨i', hi', hx⟩⟩
    · have hx : Opd.inst y ∈ B.term.args.map (Opd.sub σ) := by rw [← Term.sub_args]; exact hx
      obtain ⟨x, hx, e⟩ := mem_sub hx
      exact ⟨x, e, .inr hx⟩
  refine ⟨⟨?_, ?_, ?_, ?_, ?_, ?_, ?_, ?_⟩, P.nodup, ?_, ?_, P.entryIn, ?_, ?_⟩
  · have : (F.sub σ).allIds = F.allIds := by
      unfold Func.allIds Func.blocks Func.sub
      simp only
      rw [← List.map_filterMap, List.flatMap_map]
      simp
    rw [this]; exact P.unique
  · intro a b h
    rw [Func.sub_edge] at h
    exact P.closed a b h
  · intro b B hB
    obtain ⟨B', hB', rfl⟩ := sub_blk hB
    refine ⟨?_, ?_⟩
    · intro pre i post e y hy hown
      simp only [Block.sub_ids] at hown
      have hk : (B'.sub σ).body[pre.length]? = some i := by rw [e]; simp
      simp only [Block.sub, List.getElem?_map, Option.map_eq_some_iff] at hk
      obtain ⟨i', hi', rfl⟩ := hk
      obtain ⟨x, hx, ex⟩ := mem_sub hy
      have him := List.mem_of_getElem? hi'
      have hpre : pre.map Inst.id = (B'.body.take pre.length).map Inst.id := by
        have : pre = (B'.body.map (Inst.sub σ)).take pre.length := by
          rw [show B'.body.map (Inst.sub σ) = pre ++ i'.sub σ :: post from e]; simp
        have h2 := congrArg (List.map Inst.id) this
        rw [h2, ← List.map_take, List.map_map]
        rfl
      rw [hpre]
      have hph : (B'.sub σ).phis.map Phi.id = B'.phis.map Phi.id := by simp [Block.sub, Function.comp_def, Phi.sub]
      rw [hph]
      obtain ⟨hlt, hget⟩ := List.getElem?_eq_some_iff.mp hi'
      refine order hB' ex (P.exists_ b B' hB' x (mem_operands.mpr (.inr (.inl ⟨i', him, hx⟩)))) ?_ ?_ hown
      · intro h hb hd
        exact P.useDom b B' x h hB' hb (.inl ⟨i', him, hx⟩) hd
      · intro hxi
        refine (P.inOrder b B' hB').1 (B'.body.take pre.length) i' (B'.body.drop (pre.length + 1)) ?_ x hx hxi
        rw [← hget, List.getElem_cons_drop, List.take_append_drop]
    · intro y hy hown
      simp only [Block.sub_ids] at hown
      obtain ⟨x, ex, hx⟩ := useof (.inr hy)
      have hy' : Opd.inst y ∈ B'.term.args.map (Opd.sub σ) := by rw [← Term.sub_args]; exact hy
      obtain ⟨x, hx, ex⟩ := mem_sub hy'
      have hph : (B'.sub σ).phis.map Phi.id = B'.phis.map Phi.id := by simp [Block.sub, Function.comp_def, Phi.sub]
      have hbd : (B'.sub σ).body.map Inst.id = (B'.body.take B'.body.length).map Inst.id := by
        rw [List.take_length]; simp [Block.sub, Function.comp_def, Inst.sub]
      rw [hph, hbd]
      refine order hB' ex (P.exists_ b B' hB' x (mem_operands.mpr (.inr (.inr hx)))) ?_ ?_ hown
      · intro h hb hd
        exact P.useDom b B' x h hB' hb (.inr hx) hd
      · intro hxi
        rw [List.take_length]
        exact (P.inOrder b B' hB').2 x hx hxi
  · intro b B hB y hy
    obtain ⟨B', hB', rfl⟩ := sub_blk hB
    have : ∃ x, σ x = .inst y ∧ x ∈ B'.operands := by
      rcases mem_operands.mp hy with ⟨p, hp, h⟩ | h
      · obtain ⟨p', hp', rfl⟩ := phimem hp
        obtain ⟨x, hx, e⟩ := opmem h
        exact ⟨x, e, mem_operands.mpr (.inl ⟨p', hp', hx⟩)⟩
      · obtain ⟨x, e, hx⟩ := useof h
        exact ⟨x, e, mem_operands.mpr (.inr hx)⟩
    obtain ⟨x, e, hx⟩ := this
    obtain ⟨d, hd⟩ := P.exists_ b B' hB' x hx
    obtain ⟨d', hd', _⟩ := home e hd
    exact ⟨d', (Func.sub_defIn σ _ _).mpr hd'⟩
  · intro b B p hB hb hp q v hq
    obtain ⟨B', hB', rfl⟩ := sub_blk hB
    obtain ⟨p', hp', rfl⟩ := phimem hp
    obtain ⟨v', hv', _⟩ := incmem hq
    rw [Func.sub_edge]
    exact P.phiPred b B' p' hB' ((Func.sub_live σ b).mp hb) hp' q v' hv'
  · intro b B p q hB hb hp he hq
    obtain ⟨B', hB', rfl⟩ := sub_blk hB
    obtain ⟨p', hp', rfl⟩ := phimem hp
    rw [Func.sub_edge] at he
    obtain ⟨v, hv⟩ := P.phiAll b B' p' q hB' ((Func.sub_live σ b).mp hb) hp' he ((Func.sub_live σ q).mp hq)
    exact ⟨v.sub σ, List.mem_map.mpr ⟨(q, v), hv, rfl⟩⟩
  · intro b B p q y h hB hb hp hq hd hlh hlq
    obtain ⟨B', hB', rfl⟩ := sub_blk hB
    obtain ⟨p', hp', rfl⟩ := phimem hp
    obtain ⟨v', hv', e⟩ := incmem hq
    rw [Func.sub_defIn] at hd
    rw [Func.sub_live] at hb hlq
    rw [Func.sub_domi]
    cases v' with
    | cst c => simp [Opd.sub] at e
    | inst x =>
      simp only [Opd.sub] at e
      have hxo : Opd.inst x ∈ p'.ops := mem_ops.mpr ⟨q, hv'⟩
      obtain ⟨d, hdx⟩ := P.exists_ b B' hB' x (mem_operands.mpr (.inl ⟨p', hp', hxo⟩))
      have hdq := P.phiDom b B' p' q x d hB' hb hp' hv' hdx (P.deadPhis b B' p' x d hB' hb hp' hxo hdx) hlq
      obtain ⟨e', he', hde, _⟩ := home e.symm hdx
      rw [P.home hd he']
      exact hde.trans hdq
  · intro b B y h hB hb hu hd
    obtain ⟨B', hB', rfl⟩ := sub_blk hB
    rw [Func.sub_defIn] at hd
    rw [Func.sub_live] at hb
    rw [Func.sub_domi]
    obtain ⟨x, e, hx⟩ := useof hu
    obtain ⟨d, hdx⟩ := P.exists_ b B' hB' x (mem_operands.mpr (.inr hx))
    have hdb := P.useDom b B' x d hB' hb hx hdx
    obtain ⟨e', he', hde, _⟩ := home e hdx
    rw [P.home hd he']
    exact hde.trans hdb
  · intro b B hB
    obtain ⟨B', hB', rfl⟩ := sub_blk hB
    exact P.listed b B' hB'
  · intro b hb
    obtain ⟨B, hB⟩ := P.total b hb
    exact ⟨B.sub σ, by simp [Func.sub, hB]⟩
  · intro B hB
    obtain ⟨B', hB', rfl⟩ := sub_blk hB
    simp [Block.sub, P.entryPhis B' hB']
  · intro b B p y h hB hb hp hy hd
    obtain ⟨B', hB', rfl⟩ := sub_blk hB
    obtain ⟨p', hp', rfl⟩ := phimem hp
    rw [Func.sub_defIn] at hd
    rw [Func.sub_live] at hb ⊢
    obtain ⟨x, hx, e⟩ := opmem hy
    obtain ⟨d, hdx⟩ := P.exists_ b B' hB' x (mem_operands.mpr (.inl ⟨p', hp', hx⟩))
    obtain ⟨e', he', _, hl⟩ := home e hdx
    rw [P.home hd he']
    exact hl (P.deadPhis b B' p' x d hB' hb hp' hx hdx)

end
end Cmmc.SSA
