import Verif.SSA.Num
/-!
# Inserting a harmless instruction at the end of a block
-/
namespace Cmmc.SSA

/-- `inst->insertBefore(block, std::prev(block->instructions().end()))`: right before the terminator -/
def Func.insertEnd {Op C : Type} (F : Func Op C) (b : Nat) (i : Inst Op C) : Func Op C :=
  { F with blk := fun c => if c = b then (F.blk b).map (fun B => { B with body := B.body ++ [i] }) else F.blk c }

/-- a new id, and operands that are computed when the end of `b` is reached -/
structure Insertable {Op C : Type} (F : Func Op C) (b : Nat) (i : Inst Op C) : Prop where
  mem : ∃ B, F.blk b = some B
  live : Live F b
  fresh : ∀ d, ¬ DefIn F i.id d
  args : ∀ x, Opd.inst x ∈ i.args → ∃ d, DefIn F x d ∧ Domi F d b

section
variable {Op C : Type} {F : Func Op C} {b : Nat} {i : Inst Op C}

theorem ins_blk {c : Nat} {B' : Block Op C} (h : (F.insertEnd b i).blk c = some B') :
    ∃ B, F.blk c = some B ∧ B'.phis = B.phis ∧ B'.term = B.term ∧ B'.body = (if c = b then B.body ++ [i] else B.body) := by
  unfold Func.insertEnd at h
  simp only at h
  split at h
  · rename_i e
    subst e
    obtain ⟨B, hB, rfl⟩ := Option.map_eq_some_iff.mp h
    exact ⟨B, hB, rfl, rfl, by simp⟩
  · rename_i e
    exact ⟨B', h, rfl, rfl, by simp [e]⟩

theorem ins_blk' {c : Nat} {B : Block Op C} (h : F.blk c = some B) :
    (F.insertEnd b i).blk c = some { B with body := if c = b then B.body ++ [i] else B.body } := by
  unfold Func.insertEnd
  simp only
  split
  · rename_i e; subst e; rw [h]; rfl
  · exact h

theorem ins_edge : Edge (F.insertEnd b i) = Edge F := by
  funext x y
  unfold Edge
  apply propext
  constructor
  · rintro ⟨B, hB, h⟩
    obtain ⟨B', hB', _, ht, _⟩ := ins_blk hB
    exact ⟨B', hB', ht ▸ h⟩
  · rintro ⟨B, hB, h⟩
    exact ⟨_, ins_blk' hB, h⟩

theorem ins_live (c : Nat) : Live (F.insertEnd b i) c ↔ Live F c := by unfold Live; rw [ins_edge]; rfl
theorem ins_domi (a c : Nat) : Domi (F.insertEnd b i) a c ↔ Domi F a c := by unfold Domi; rw [ins_edge]; rfl

theorem ins_ids {c : Nat} {B B' : Block Op C} (hp : B'.phis = B.phis) (hb : B'.body = (if c = b then B.body ++ [i] else B.body)) (x : Nat) :
    x ∈ B'.ids ↔ x ∈ B.ids ∨ (c = b ∧ x = i.id) := by
  unfold Block.ids
  rw [hp, hb]
  split
  · rename_i e; simp [e, or_assoc]
  · rename_i e; simp [e]

theorem ins_defIn {x c : Nat} (hb : ∃ B, F.blk b = some B) : DefIn (F.insertEnd b i) x c ↔ DefIn F x c ∨ (c = b ∧ x = i.id) := by
  constructor
  · rintro ⟨B', hB', hx⟩
    obtain ⟨B, hB, hp, _, hbd⟩ := ins_blk hB'
    rcases (ins_ids hp hbd x).mp hx with h | h
    · exact .inl ⟨B, hB, h⟩
    · exact .inr h
  · rintro (⟨B, hB, hx⟩ | ⟨rfl, rfl⟩)
    · exact ⟨_, ins_blk' hB, (ins_ids (B := B) (B' := { B with body := if c = b then B.body ++ [i] else B.body }) rfl rfl x).mpr (.inl hx)⟩
    · obtain ⟨B, hB⟩ := hb
      exact ⟨_, ins_blk' hB, (ins_ids (B := B) (B' := { B with body := if c = c then B.body ++ [i] else B.body }) rfl rfl _).mpr (.inr ⟨rfl, rfl⟩)⟩

/-- no operand refers to the new instruction -/
theorem Insertable.unused (I : Insertable F b i) (P : Proper F) {c : Nat} {B : Block Op C} (hB : F.blk c = some B) : i.id ∉ B.operands := by
  intro h
  obtain ⟨d, hd⟩ := P.exists_ c B hB _ h
  exact I.fresh d hd

theorem Insertable.self (I : Insertable F b i) : Opd.inst i.id ∉ i.args := by
  intro h
  obtain ⟨d, hd, _⟩ := I.args _ h
  exact I.fresh d hd

theorem proper_insert (P : Proper F) (I : Insertable F b i) : Proper (F.insertEnd b i) := by
  have hdef : ∀ {x c}, DefIn (F.insertEnd b i) x c ↔ DefIn F x c ∨ (c = b ∧ x = i.id) := ins_defIn I.mem
  have old : ∀ {x c}, DefIn (F.insertEnd b i) x c → x ≠ i.id → DefIn F x c := by
    intro x c h hne
    rcases hdef.mp h with h | ⟨_, h⟩
    · exact h
    · exact absurd h hne
  have useof : ∀ {c : Nat} {B B' : Block Op C} {x : Nat}, B'.body = (if c = b then B.body ++ [i] else B.body) → B'.term = B.term →
      ((∃ j ∈ B'.body, Opd.inst x ∈ j.args) ∨ Opd.inst x ∈ B'.term.args) →
      ((∃ j ∈ B.body, Opd.inst x ∈ j.args) ∨ Opd.inst x ∈ B.term.args) ∨ (c = b ∧ Opd.inst x ∈ i.args) := by
    intro c B B' x hb ht h
    rw [ht] at h
    rw [hb] at h
    rcases h with ⟨j, hj, hx⟩ | hx
    · split at hj
      · rename_i e
        rcases List.mem_append.mp hj with hj | hj
        · exact .inl (.inl ⟨j, hj, hx⟩)
        · simp only [List.mem_singleton] at hj; subst hj; exact .inr ⟨e, hx⟩
      · exact .inl (.inl ⟨j, hj, hx⟩)
    · exact .inl (.inr hx)
  have uu : ∀ {c : Nat} {B : Block Op C} {x : Nat}, F.blk c = some B → ((∃ j ∈ B.body, Opd.inst x ∈ j.args) ∨ Opd.inst x ∈ B.term.args) → x ≠ i.id := by
    rintro c B x hB h rfl
    exact I.unused P hB (mem_operands.mpr (.inr h))
  refine ⟨⟨?_, ?_, ?_, ?_, ?_, ?_, ?_, ?_⟩, P.nodup, ?_, ?_, P.entryIn, ?_, ?_⟩
  · -- unique
    have hu := P.unique
    have hn := P.nodup
    have hfr := I.fresh
    have hl := P.listed
    have hlist : ∀ (l : List Nat), l.Nodup → (∀ c ∈ l, c ∈ F.order) → ((l.filterMap F.blk).flatMap Block.ids).Nodup →
        ((l.filterMap (F.insertEnd b i).blk).flatMap Block.ids).Nodup ∧
        ∀ x, x ∈ (l.filterMap (F.insertEnd b i).blk).flatMap Block.ids ↔ x ∈ (l.filterMap F.blk).flatMap Block.ids ∨ (b ∈ l ∧ x = i.id) := by
      intro l
      induction l with
      | nil => intro _ _ _; simp
      | cons c l ih =>
        intro hn hm hnd
        rw [List.nodup_cons] at hn
        cases hB : F.blk c with
        | none =>
          have hB' : (F.insertEnd b i).blk c = none := by
            cases h : (F.insertEnd b i).blk c with
            | none => rfl
            | some B' => obtain ⟨B, hB2, _⟩ := ins_blk h; rw [hB] at hB2; simp at hB2
          have hcb : b ≠ c := by rintro rfl; obtain ⟨B, h⟩ := I.mem; rw [hB] at h; simp at h
          rw [List.filterMap_cons_none hB] at hnd ⊢
          rw [List.filterMap_cons_none hB']
          obtain ⟨h1, h2⟩ := ih hn.2 (fun c' h => hm c' (by simp [h])) hnd
          refine ⟨h1, fun x => ?_⟩
          rw [h2]
          simp [hcb]
        | some B =>
          have hB' := ins_blk' (b := b) (i := i) hB
          rw [List.filterMap_cons_some hB] at hnd ⊢
          rw [List.filterMap_cons_some hB']
          rw [List.flatMap_cons] at hnd ⊢
          rw [List.flatMap_cons]
          rw [List.nodup_append] at hnd
          obtain ⟨h1, h2⟩ := ih hn.2 (fun c' h => hm c' (by simp [h])) hnd.2.1
          set B'' : Block Op C := { B with body := if c = b then B.body ++ [i] else B.body } with hdefB
          have hids := fun x => ins_ids (c := c) (b := b) (i := i) (B := B) (B' := B'') rfl rfl x
          refine ⟨?_, fun x => ?_⟩
          · rw [List.nodup_append]
            refine ⟨?_, h1, ?_⟩
            · by_cases hcb : c = b
              · have : B''.ids = B.ids ++ [i.id] := by simp [hdefB, Block.ids, hcb]
                rw [this, List.nodup_append]
                refine ⟨hnd.1, by simp, ?_⟩
                rintro x hx y hy rfl
                simp only [List.mem_singleton] at hy
                exact hfr c ⟨B, hB, hy ▸ hx⟩
              · have : B''.ids = B.ids := by simp [hdefB, Block.ids, hcb]
                rw [this]; exact hnd.1
            · rintro x hx y hy rfl
              rcases (hids x).mp hx with h | ⟨rfl, rfl⟩
              · rcases (h2 x).mp hy with h' | ⟨_, rfl⟩
                · exact hnd.2.2 x h x h' rfl
                · exact hfr c ⟨B, hB, h⟩
              · rcases (h2 i.id).mp hy with h' | ⟨h', _⟩
                · obtain ⟨A, hA, hx'⟩ := List.mem_flatMap.mp h'
                  obtain ⟨a, _, ha⟩ := List.mem_filterMap.mp hA
                  exact hfr a ⟨A, ha, hx'⟩
                · exact hn.1 h'
          · rw [List.mem_append, List.mem_append, h2, hids]
            constructor
            · rintro ((h | ⟨rfl, rfl⟩) | (h | ⟨h, rfl⟩))
              · exact .inl (.inl h)
              · exact .inr ⟨by simp, rfl⟩
              · exact .inl (.inr h)
              · exact .inr ⟨by simp [h], rfl⟩
            · rintro ((h | h) | ⟨h, rfl⟩)
              · exact .inl (.inl h)
              · exact .inr (.inl h)
              · rcases List.mem_cons.mp h with rfl | h
                · exact .inl (.inr ⟨rfl, rfl⟩)
                · exact .inr (.inr ⟨h, rfl⟩)
    exact (hlist F.order hn (fun _ h => h) hu).1
  · intro x y h
    rw [ins_edge] at h
    exact P.closed x y h
  · intro c B' hB'
    obtain ⟨B, hB, hp, ht, hbd⟩ := ins_blk hB'
    obtain ⟨o1, o2⟩ := P.inOrder c B hB
    have hids := ins_ids hp hbd
    refine ⟨?_, ?_⟩
    · intro pre j post e x hx hown
      rw [hp]
      rw [hbd] at e
      split at e
      · rename_i hcb
        rcases List.append_eq_append_iff.mp e with ⟨a, e1, e2⟩ | ⟨a, e1, e2⟩
        · -- pre = B.body ++ a
          cases a with
          | nil =>
            simp only [List.append_nil] at e1
            simp only [List.nil_append, List.cons.injEq] at e2
            subst e1
            have hji := e2.1
            subst hji
            rcases (hids x).mp hown with h | ⟨_, rfl⟩
            · exact List.mem_append.mp h
            · exact absurd hx I.self
          | cons a0 a => simp at e2
        · cases a with
          | nil =>
            simp only [List.append_nil] at e1
            simp only [List.nil_append, List.cons.injEq] at e2
            subst e1
            have hji := e2.1
            subst hji
            rcases (hids x).mp hown with h | ⟨_, rfl⟩
            · exact List.mem_append.mp h
            · exact absurd hx I.self
          | cons a0 a =>
            simp only [List.cons_append, List.cons.injEq] at e2
            obtain ⟨rfl, e2⟩ := e2
            have hxne := uu (x := x) hB (.inl ⟨j, by rw [e1]; simp, hx⟩)
            rcases (hids x).mp hown with h | ⟨_, h⟩
            · exact o1 pre j a e1 x hx h
            · exact absurd h hxne
      · have hxne := uu (x := x) hB (.inl ⟨j, by rw [e]; simp, hx⟩)
        rcases (hids x).mp hown with h | ⟨_, h⟩
        · exact o1 pre j post e x hx h
        · exact absurd h hxne
    · intro x hx hown
      rw [ht] at hx
      have hxne := uu (x := x) hB (.inr hx)
      rw [hp, hbd]
      rcases (hids x).mp hown with h | ⟨_, h⟩
      · refine (o2 x hx h).imp_right (fun h' => ?_)
        split
        · rw [List.map_append]; exact List.mem_append.mpr (.inl h')
        · exact h'
      · exact absurd h hxne
  · intro c B' hB' x hx
    obtain ⟨B, hB, hp, ht, hbd⟩ := ins_blk hB'
    rcases mem_operands.mp hx with ⟨p, hpm, hxo⟩ | h
    · obtain ⟨d, hd⟩ := P.exists_ c B hB x (mem_operands.mpr (.inl ⟨p, hp ▸ hpm, hxo⟩))
      exact ⟨d, hdef.mpr (.inl hd)⟩
    · rcases useof hbd ht h with h | ⟨_, h⟩
      · obtain ⟨d, hd⟩ := P.exists_ c B hB x (mem_operands.mpr (.inr h))
        exact ⟨d, hdef.mpr (.inl hd)⟩
      · obtain ⟨d, hd, _⟩ := I.args x h
        exact ⟨d, hdef.mpr (.inl hd)⟩
  · intro c B' p hB' hl hp' q v hq
    obtain ⟨B, hB, hp, _, _⟩ := ins_blk hB'
    rw [ins_edge]
    exact P.phiPred c B p hB ((ins_live c).mp hl) (hp ▸ hp') q v hq
  · intro c B' p q hB' hl hp' he hlq
    obtain ⟨B, hB, hp, _, _⟩ := ins_blk hB'
    rw [ins_edge] at he
    exact P.phiAll c B p q hB ((ins_live c).mp hl) (hp ▸ hp') he ((ins_live q).mp hlq)
  · intro c B' p q x h hB' hl hp' hq hd hlh hlq
    obtain ⟨B, hB, hp, _, _⟩ := ins_blk hB'
    rw [ins_domi]
    have hx : x ≠ i.id := by
      rintro rfl
      exact I.unused P hB (mem_operands.mpr (.inl ⟨p, hp ▸ hp', mem_ops.mpr ⟨q, hq⟩⟩))
    exact P.phiDom c B p q x h hB ((ins_live c).mp hl) (hp ▸ hp') hq (old hd hx) ((ins_live h).mp hlh) ((ins_live q).mp hlq)
  · intro c B' x h hB' hl hu hd
    obtain ⟨B, hB, hp, ht, hbd⟩ := ins_blk hB'
    rw [ins_domi]
    rcases useof hbd ht hu with hu | ⟨rfl, hu⟩
    · exact P.useDom c B x h hB ((ins_live c).mp hl) hu (old hd (uu hB hu))
    · obtain ⟨d, hd', hdom⟩ := I.args x hu
      have hx : x ≠ i.id := by rintro rfl; exact I.self hu
      rw [P.home (old hd hx) hd']
      exact hdom
  · intro c B' hB'
    obtain ⟨B, hB, _⟩ := ins_blk hB'
    exact P.listed c B hB
  · intro c hc
    obtain ⟨B, hB⟩ := P.total c hc
    exact ⟨_, ins_blk' hB⟩
  · intro B' hB'
    obtain ⟨B, hB, hp, _⟩ := ins_blk hB'
    rw [hp]; exact P.entryPhis B hB
  · intro c B' p x h hB' hl hp' hx hd
    obtain ⟨B, hB, hp, _, _⟩ := ins_blk hB'
    have hxne : x ≠ i.id := by
      rintro rfl
      exact I.unused P hB (mem_operands.mpr (.inl ⟨p, hp ▸ hp', hx⟩))
    rw [ins_live]
    exact P.deadPhis c B p x h hB ((ins_live c).mp hl) (hp ▸ hp') hx (old hd hxne)

end

section
variable {L : Lang} {F : L.F}

/-- what is available has a value -/
theorem defined_inv (P : Proper F) : PointInv F (fun b k env => ∀ x, Avail F b k x → env x ≠ none) := by
  refine ⟨?_, ?_, ?_⟩
  · rintro x ⟨d, hd, hdom, hin⟩
    obtain ⟨B, hB, hm⟩ := hin (domi_entry hdom)
    rw [P.entryPhis B hB] at hm
    simp at hm
  · intro q b B A env env' hq he hA hB hQ hen x hav
    rcases P.avail_enter he hA hB hav with h | ⟨h, hav'⟩
    · obtain ⟨p, hp, rfl⟩ := List.mem_map.mp h
      exact (enterPhis_val hen (P.phis_nodup hB) p hp).2
    · rw [enterPhis_other hen _ (fun hm => h (List.mem_append.mpr (.inl hm)))]
      exact hQ x hav'
  · intro b k B i env vs v m m' es hb hB hi hQ hvs hs x hav
    rcases avail_succ hB hi hav with h | h
    · exact setEnv_ne_none (hQ x h)
    · rw [h]; simp [setEnv]

/-- equal except for one register -/
def AgreeOff (z : Nat) (e e' : Env L) : Prop := ∀ x, x ≠ z → e x = e' x

theorem AgreeOff.set {z : Nat} {e e' : Env L} (h : AgreeOff z e e') (i : Nat) (v : L.V) : AgreeOff z (setEnv L e i v) (setEnv L e' i v) := by
  intro x hx
  unfold setEnv
  split
  · rfl
  · exact h x hx

theorem AgreeOff.eval' {z : Nat} {e e' : Env L} (h : AgreeOff z e e') {o : Opd L.C} (ho : o ≠ .inst z) : eval L e' o = eval L e o := by
  cases o with
  | cst c => rfl
  | inst x => exact (h x (fun hx => ho (by rw [hx]))).symm

theorem AgreeOff.evals' {z : Nat} {e e' : Env L} (h : AgreeOff z e e') : ∀ {os : List (Opd L.C)}, Opd.inst z ∉ os → evals L e' os = evals L e os := by
  intro os
  induction os with
  | nil => intro _; rfl
  | cons o os ih =>
    intro hz
    simp only [List.mem_cons, not_or] at hz
    simp only [SSA.evals]
    rw [ih hz.2, h.eval' (fun e => hz.1 e.symm)]

theorem AgreeOff.term {z : Nat} {e e' : Env L} (h : AgreeOff z e e') {t : Term L.C} (ht : Opd.inst z ∉ t.args) : evalTerm L e' t = evalTerm L e t := by
  cases t with
  | ret v =>
    cases v with
    | none => rfl
    | some o => simp only [evalTerm]; rw [h.eval']; intro e; exact ht (by simp [Term.args, e])
  | br t => rfl
  | cbr c t f => simp only [evalTerm]; rw [h.eval']; intro e; exact ht (by simp [Term.args, e])
  | sw c d cs => simp only [evalTerm]; rw [h.eval']; intro e; exact ht (by simp [Term.args, e])
  | unreachable => rfl

theorem AgreeOff.phis {z : Nat} {pred : Option Nat} {old old' : Env L} (hold : AgreeOff z old old') : ∀ {ps : List (Phi L.C)} {e e' r : Env L},
    (∀ p ∈ ps, Opd.inst z ∉ p.ops) → AgreeOff z e e' → enterPhis L pred old ps e = some r → ∃ r', enterPhis L pred old' ps e' = some r' ∧ AgreeOff z r r' := by
  intro ps
  induction ps with
  | nil => intro e e' r _ h hr; simp only [enterPhis, Option.some.injEq] at hr; subst hr; exact ⟨e', rfl, h⟩
  | cons p ps ih =>
    intro e e' r hz h hr
    simp only [enterPhis] at hr ⊢
    have : phiVal L pred old' p = phiVal L pred old p := by
      unfold phiVal
      cases pred with
      | none => rfl
      | some q =>
        simp only
        cases hat : p.at q with
        | none => rfl
        | some o =>
          simp only
          refine hold.eval' ?_
          rintro rfl
          exact hz p (by simp) (mem_ops.mpr ⟨q, Phi.at_mem hat⟩)
    rw [this]
    cases hv : phiVal L pred old p with
    | none => rw [hv] at hr; simp at hr
    | some v =>
      rw [hv] at hr
      exact ih (fun p' hp' => hz p' (by simp [hp'])) (h.set p.id v) hr

theorem AgreeOff.body {z : Nat} : ∀ {is : List (Inst L.Op L.C)} {e e' : Env L} {m : L.M} {es : List L.E}, (∀ i ∈ is, Opd.inst z ∉ i.args) → AgreeOff z e e' →
    BodyRel (AgreeOff z) (execBody L is e m es) (execBody L is e' m es) := by
  intro is
  induction is with
  | nil => intro e e' m es _ h; exact ⟨e', rfl, h⟩
  | cons i is ih =>
    intro e e' m es hz h
    simp only [execBody]
    rw [h.evals' (hz i (by simp))]
    cases evals L e i.args with
    | none => trivial
    | some vs =>
      simp only
      cases L.sem i.op vs m with
      | ub => trivial
      | halt es' h' => rfl
      | ok v m' es' => exact ih (fun j hj => hz j (by simp [hj])) (h.set i.id v)

theorem execBody_append : ∀ {is js : List (Inst L.Op L.C)} {e : Env L} {m : L.M} {es : List L.E}, execBody L (is ++ js) e m es =
    match execBody L is e m es with
    | .ok e' m' es' => execBody L js e' m' es'
    | .ub => .ub
    | .halt es' h => .halt es' h := by
  intro is
  induction is with
  | nil => intro js e m es; rfl
  | cons i is ih =>
    intro js e m es
    simp only [List.cons_append, execBody]
    cases evals L e i.args with
    | none => rfl
    | some vs =>
      simp only
      cases L.sem i.op vs m with
      | ub => rfl
      | halt es' h' => rfl
      | ok v m' es' => exact ih

theorem evals_some {env : Env L} : ∀ {os : List (Opd L.C)}, (∀ x, .inst x ∈ os → env x ≠ none) → ∃ vs, evals L env os = some vs := by
  intro os
  induction os with
  | nil => intro _; exact ⟨[], rfl⟩
  | cons o os ih =>
    intro h
    obtain ⟨vs, hvs⟩ := ih (fun x hx => h x (List.mem_cons_of_mem _ hx))
    cases o with
    | cst c => exact ⟨L.cval c :: vs, by simp [evals, eval, hvs]⟩
    | inst x =>
      cases hx : env x with
      | none => exact absurd hx (h x (by simp))
      | some v => exact ⟨v :: vs, by simp [evals, eval, hx, hvs]⟩

/-- inserting an instruction that cannot fail changes nothing -/
theorem refines_insert (P : Proper F) {b : Nat} {i : Inst L.Op L.C} (I : Insertable F b i)
    (hs : ∀ env vs m, evals L env i.args = some vs → ∃ v, L.sem i.op vs m = .ok v m []) : Refines L F (F.insertEnd b i) := by
  have D := defined_inv P
  let A : Nat → Nat → Env L → Prop := fun b k env => ∀ x, Avail F b k x → env x ≠ none
  have D : PointInv F A := D
  refine refines_rel (Q := fun pred cur e e' => (∀ m tr, Between F A ⟨pred, cur, e, m, tr⟩) ∧ AgreeOff i.id e e') rfl ⟨fun m tr => ⟨rfl, rfl⟩, fun _ _ => rfl⟩ ?_
  rintro s e ⟨hbt, hag⟩
  have hbt : Between F A s := hbt s.m s.tr
  unfold step
  cases hB : F.blk s.cur with
  | none => trivial
  | some B =>
    have hu := I.unused P hB
    rw [ins_blk' hB]
    simp only
    refine stepBlk_rel (Q1 := fun r r' => AgreeOff i.id r r' ∧ A s.cur 0 r) (Q2 := fun r r' => AgreeOff i.id r r' ∧ A s.cur B.body.length r) ?_ ?_ ?_ ?_
    · intro r hr
      obtain ⟨r', h1, h2⟩ := hag.phis (ps := B.phis) (fun p hp hz => hu (mem_operands.mpr (.inl ⟨p, hp, hz⟩))) hag hr
      exact ⟨r', h1, h2, D.phis P hbt hB hr⟩
    · rintro r r' m es ⟨h1, h2⟩
      have hbr := h1.body (is := B.body) (m := m) (es := es) (fun j hj hz => hu (mem_operands.mpr (.inr (.inl ⟨j, hj, hz⟩))))
      cases hx : execBody L B.body r m es with
      | ub => trivial
      | halt es' h' =>
        rw [hx] at hbr
        simp only [BodyRel] at hbr
        show execBody L (if s.cur = b then B.body ++ [i] else B.body) r' m es = _
        split
        · rw [execBody_append, hbr]
        · exact hbr
      | ok r2 m2 es2 =>
        rw [hx] at hbr
        obtain ⟨r2', hbr, hag2⟩ := hbr
        have hA := D.body hbt.live hB B.body.length 0 r m es (by omega) h2 (by rw [List.drop_zero]; exact hx) (Nat.zero_le _)
        show ∃ e', execBody L (if s.cur = b then B.body ++ [i] else B.body) r' m es = .ok e' m2 es2 ∧ _
        split
        · rename_i hcb
          rw [execBody_append, hbr]
          have hargs : ∃ vs, evals L r2' i.args = some vs := by
            refine evals_some (fun x hx => ?_)
            obtain ⟨d, hd, hdom⟩ := I.args x hx
            rw [← hag2 x (by rintro rfl; exact I.self hx)]
            exact hA x (avail_end P hd (hcb ▸ hdom) hB)
          obtain ⟨vs, hvs⟩ := hargs
          obtain ⟨v, hv⟩ := hs r2' vs m2 hvs
          refine ⟨setEnv L r2' i.id v, by simp [execBody, hvs, hv], ?_, hA⟩
          intro x hx
          rw [setEnv_of_ne hx]
          exact hag2 x hx
        · exact ⟨r2', hbr, hag2, hA⟩
    · rintro r r' ⟨h1, _⟩
      exact .inr (h1.term (fun hz => hu (mem_operands.mpr (.inr (.inr hz)))))
    · rintro r r' c ⟨h1, h2⟩ hc
      exact ⟨fun m tr => ⟨hbt.live, ⟨B, hB, hc⟩, B, hB, h2⟩, h1⟩

end
end Cmmc.SSA
