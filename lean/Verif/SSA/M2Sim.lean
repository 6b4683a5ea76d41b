import Verif.SSA.M2Priv
/-!
# A certificate for ScalarMem2Reg implies that nothing observable changes
-/
namespace Cmmc.SSA

/-- What the pass relies on about stack slots. `get m k`: the content of slot `k`, `none` before the first store. `touch k v`: the value `v` can be
used to get at slot `k`. `clean m k`: no value in memory can. A load of a slot that has not been stored to is undefined; an instruction without an
operand that touches the slot does not change it and does not return a value that touches it. -/
structure Slots (L : Lang) (kind : L.Op → Kind) where
  K : Type
  slot : L.Op → Option K
  get : L.M → K → Option L.V
  addr : K → L.V
  touch : K → L.V → Prop
  clean : L.M → K → Prop
  /-- slots of primitive type: only these can be read and written as a whole -/
  scalar : K → Prop
  scalarOf : ∀ op k, kind op = .alloca true → slot op = some k → scalar k
  slotOf : ∀ op s, kind op = .alloca s → ∃ k, slot op = some k
  cst : ∀ k c, ¬ touch k (L.cval c)
  addrOther : ∀ k k', k ≠ k' → ¬ touch k (addr k')
  alloca : ∀ op s vs m v m' es, kind op = .alloca s → L.sem op vs m = .ok v m' es →
    ∃ k, slot op = some k ∧ v = addr k ∧ get m' k = none ∧ clean m' k
  load : ∀ op k vs m v m' es, scalar k → kind op = .load → vs[0]? = some (addr k) → (∀ j, 0 < j → ∀ w, vs[j]? = some w → ¬ touch k w) → clean m k →
    L.sem op vs m = .ok v m' es → get m k = some v ∧ get m' k = get m k ∧ clean m' k ∧ ¬ touch k v
  store : ∀ op k w vs m v m' es, scalar k → kind op = .store → vs[0]? = some (addr k) → vs[1]? = some w → (∀ j, 0 < j → ∀ w, vs[j]? = some w → ¬ touch k w) → clean m k →
    L.sem op vs m = .ok v m' es → get m' k = some w ∧ clean m' k ∧ ¬ touch k v
  other : ∀ op k vs m v m' es, slot op ≠ some k → (∀ w ∈ vs, ¬ touch k w) → clean m k →
    L.sem op vs m = .ok v m' es → get m' k = get m k ∧ clean m' k ∧ ¬ touch k v

section
variable {L : Lang} {kind : L.Op → Kind} {F G : L.F} {vars : List Nat} {Φ : List (Nat × Nat × Nat)} {E : List (Nat × Opd L.C)}

theorem evals_get {env : Env L} : ∀ {os : List (Opd L.C)} {vs : List L.V}, evals L env os = some vs → ∀ n : Nat, vs[n]? = os[n]?.bind (eval L env) := by
  intro os
  induction os with
  | nil => intro vs h n; simp only [evals, Option.some.injEq] at h; subst h; simp
  | cons o os ih =>
    intro vs h n
    simp only [evals] at h
    split at h
    · rename_i v ws e1 e2
      simp only [Option.some.injEq] at h
      subst h
      cases n with
      | zero => simp [e1]
      | succ n => simpa using ih e2 n
    · cases h

/-- the slot that the alloca `a` stands for -/
def SlotOf (S : Slots L kind) (F : L.F) (a : Nat) (k : S.K) : Prop := ∃ (b : Nat) (B : L.B) (i : Inst L.Op L.C), F.blk b = some B ∧ i ∈ B.body ∧ i.id = a ∧ S.slot i.op = some k

/-- nothing but `a` gives access to slot `a` -/
def Priv (S : Slots L kind) (F : L.F) (vars : List Nat) (b j : Nat) (e : Env L) (m : L.M) : Prop :=
  ∀ a ∈ vars, ∀ k, SlotOf S F a k → (∀ x v, x ≠ a → e x = some v → ¬ S.touch k v) ∧ (Avail F b j a → e a = some (S.addr k) ∧ S.clean m k)

/-- the states of `F` and `G` at point `(b, j)` -/
structure Sim (S : Slots L kind) (F : L.F) (vars : List Nat) (Φ : List (Nat × Nat × Nat)) (E : List (Nat × Opd L.C)) (b j : Nat) (e e' : Env L) (m : L.M) : Prop where
  agree : ∀ x, (∀ a d, (x, a, d) ∉ Φ) → e' x = e x
  dfd : ∀ x, Av F Φ b j x → e' x ≠ none
  eqs : ∀ x o, (x, o) ∈ E → Av F Φ b j x → eval L e' o = e' x
  vals : ∀ a o, Val kind F Φ E a b j o → a ∈ vars → ∀ k v, SlotOf S F a k → S.get m k = some v → eval L e' o = some v
  priv : Priv S F vars b j e m

variable {S : Slots L kind} {opn : Nat → Prop}

theorem Sim.rep {b j : Nat} {e e' : Env L} {m : L.M} (s : Sim S F vars Φ E b j e e' m) (c : Cert kind F vars Φ E G opn) (P : Proper F) (hb : Live F b)
    {o o' : Opd L.C} (r : Rep E o o') (h : AvO F Φ b j o) : eval L e' o' = eval L e' o := by
  induction r with
  | refl => rfl
  | step r h' ih => rw [s.eqs _ _ h' (c.repAv P r hb h _ rfl)]; exact ih

theorem Cert.noPhi (c : Cert kind F vars Φ E G opn) {x d : Nat} (h : DefIn F x d) : ∀ a d, (x, a, d) ∉ Φ := fun _ _ hm => (c.new _ _ _ hm).2.2.2 _ h

theorem Sim.orig {b j : Nat} {e e' : Env L} {m : L.M} (s : Sim S F vars Φ E b j e e' m) (c : Cert kind F vars Φ E G opn)
    {o : Opd L.C} (h : ∀ x, o = .inst x → Avail F b j x) : eval L e' o = eval L e o := by
  cases o with
  | cst c => rfl
  | inst x =>
    obtain ⟨d, hd, _⟩ := h x rfl
    exact s.agree x (c.noPhi hd)

/-- operands have the same values -/
theorem Sim.args {b j : Nat} {e e' : Env L} {m : L.M} (s : Sim S F vars Φ E b j e e' m) (c : Cert kind F vars Φ E G opn) (P : Proper F) (hb : Live F b)
    {os os' : List (Opd L.C)} (r : List.Forall₂ (Rep E) os os') (h : ∀ x, .inst x ∈ os → Avail F b j x) : evals L e' os' = evals L e os := by
  induction r with
  | nil => rfl
  | @cons o o' os os' h1 _ ih =>
    have ho : ∀ x, o = .inst x → Avail F b j x := fun x e => h x (by rw [e]; simp)
    simp only [evals]
    rw [ih (fun x hx => h x (List.mem_cons_of_mem _ hx)), s.rep c P hb h1 (fun x e => .inl (ho x e)), s.orig c ho]

theorem Sim.term {b j : Nat} {e e' : Env L} {m : L.M} (s : Sim S F vars Φ E b j e e' m) (c : Cert kind F vars Φ E G opn) (P : Proper F) (hb : Live F b)
    {t t' : Term L.C} (r : TermRel E t t') (h : ∀ x, .inst x ∈ t.args → Avail F b j x) : evalTerm L e' t' = evalTerm L e t := by
  have key : ∀ {o o'}, Rep E o o' → o ∈ t.args → eval L e' o' = eval L e o := by
    intro o o' hr ho
    have ho' : ∀ x, o = .inst x → Avail F b j x := fun x e => h x (e ▸ ho)
    rw [s.rep c P hb hr (fun x e => .inl (ho' x e)), s.orig c ho']
  cases r with
  | ret => rfl
  | retv r => simp only [evalTerm]; rw [key r (by simp [Term.args])]
  | br => rfl
  | cbr r => simp only [evalTerm]; rw [key r (by simp [Term.args])]
  | sw r => simp only [evalTerm]; rw [key r (by simp [Term.args])]
  | unreachable => rfl

/-- what one instruction does to the slots -/
theorem Priv.inst (V : Private kind S.slot F vars) (P : Proper F) {b j : Nat} {B : L.B} (hb : Live F b) (hB : F.blk b = some B) {i : Inst L.Op L.C}
    (hi : B.body[j]? = some i) {e : Env L} {m m' : L.M} {vs : List L.V} {v : L.V} {es : List L.E} (h : Priv S F vars b j e m) (hvs : evals L e i.args = some vs)
    (hs : L.sem i.op vs m = .ok v m' es) :
    Priv S F vars b (j + 1) (setEnv L e i.id v) m' ∧ ∀ a ∈ vars, ∀ k, SlotOf S F a k →
      (i.id = a → S.get m' k = none) ∧
      (Avail F b j a → ¬ Writes kind i a → S.get m' k = S.get m k) ∧
      (kind i.op = .load → i.args[0]? = some (.inst a) → S.get m k = some v) ∧
      (∀ o, kind i.op = .store → i.args[0]? = some (.inst a) → i.args[1]? = some o → ∃ w, eval L e o = some w ∧ S.get m' k = some w) := by
  have him := List.mem_of_getElem? hi
  have main : ∀ a ∈ vars, ∀ k, SlotOf S F a k →
      (i.id ≠ a → ¬ S.touch k v) ∧ (Avail F b (j + 1) a → (i.id = a → v = S.addr k ∧ S.get m' k = none) ∧ S.clean m' k) ∧
      (Avail F b j a → ¬ Writes kind i a → S.get m' k = S.get m k) ∧
      (kind i.op = .load → i.args[0]? = some (.inst a) → S.get m k = some v) ∧
      (∀ o, kind i.op = .store → i.args[0]? = some (.inst a) → i.args[1]? = some o → ∃ w, eval L e o = some w ∧ S.get m' k = some w) := by
    intro a ha k hk
    obtain ⟨hp1, hp2⟩ := h a ha k hk
    obtain ⟨b0, B0, i0, hB0, hi0, hid0, hsl0⟩ := id hk
    have hsc : S.scalar k := by
      obtain ⟨Be, je, ie, hBe, hie, hide, hks, _⟩ := V.lead a ha
      have hb0 : b0 = F.entry := P.home (i := a) ⟨B0, hB0, List.mem_append.mpr (.inr (List.mem_map.mpr ⟨i0, hi0, hid0⟩))⟩ (by rw [← hide]; exact Inst.defIn hBe hie)
      subst hb0
      rw [hBe] at hB0
      cases hB0
      obtain ⟨n, hn⟩ := List.getElem?_of_mem hi0
      have := P.index hBe hie hn (by rw [hid0, hide])
      subst this
      rw [hie] at hn
      cases hn
      exact S.scalarOf _ _ hks hsl0
    have hbase : ∀ (n : Nat) w, vs[n]? = some w → i.args[n]? ≠ some (Opd.inst a) → ¬ S.touch k w := by
      intro n w hw hn
      rw [evals_get hvs n] at hw
      cases ho : i.args[n]? with
      | none => rw [ho] at hw; cases hw
      | some o =>
        rw [ho] at hw
        cases o with
        | cst c => simp only [Option.bind_some, eval, Option.some.injEq] at hw; rw [← hw]; exact S.cst k c
        | inst x =>
          refine hp1 x w ?_ (by simpa [eval] using hw)
          rintro rfl
          exact hn ho
    by_cases hia : i.id = a
    · -- the allocation itself
      have hl0 := V.lead a ha
      obtain ⟨Be, je, ie, hBe, hie, hide, hks, _⟩ := hl0
      have hbe : b = F.entry := P.home (Inst.defIn hB hi) (by rw [hia, ← hide]; exact Inst.defIn hBe hie)
      have hieq : ie = i := by
        subst hbe
        rw [hBe] at hB
        cases hB
        have := P.index hBe hi hie (by rw [hide, hia])
        subst this
        rw [hi] at hie
        exact (Option.some.inj hie).symm
      rw [hieq] at hks
      obtain ⟨k', h1, h2, h3, h4⟩ := S.alloca _ _ _ _ _ _ _ hks hs
      have hkk : k' = k := by
        have : i0 = i := by
          have hb0 := P.home (i := a) ⟨B0, hB0, List.mem_append.mpr (.inr (List.mem_map.mpr ⟨i0, hi0, hid0⟩))⟩ (by rw [← hia]; exact Inst.defIn hB hi)
          subst hb0
          rw [hB0] at hB
          cases hB
          obtain ⟨n, hn⟩ := List.getElem?_of_mem hi0
          have := P.index hB0 hi hn (by rw [hid0, hia])
          subst this
          rw [hi] at hn
          exact (Option.some.inj hn).symm
        rw [this, h1] at hsl0
        exact Option.some.inj hsl0
      subst hkk
      have hnu : Opd.inst a ∉ i.args := by
        intro hu
        rcases (V.use a ha b B i hB him hu).1 with h | ⟨h, _⟩ <;> rw [hks] at h <;> cases h
      refine ⟨fun h => absurd hia h, fun _ => ⟨fun _ => ⟨h2, h3⟩, h4⟩, ?_, ?_, ?_⟩
      · intro hav _; exact absurd hav (hia ▸ P.not_avail hB hi)
      · intro _ h; exact absurd (List.mem_of_getElem? h) hnu
      · intro o _ h; exact absurd (List.mem_of_getElem? h) hnu
    · by_cases hav : Avail F b j a
      · obtain ⟨hea, hcl⟩ := hp2 hav
        by_cases hu : Opd.inst a ∈ i.args
        · obtain ⟨hkind, h0, hrest⟩ := V.use a ha b B i hB him hu
          have hv0 : vs[0]? = some (S.addr k) := by rw [evals_get hvs 0, h0]; exact hea
          have hvr : ∀ n, 0 < n → ∀ w, vs[n]? = some w → ¬ S.touch k w := fun n hn w hw => hbase n w hw (hrest n hn)
          rcases hkind with hkl | ⟨hks, v1, hv1⟩
          · obtain ⟨h1, h2, h3, h4⟩ := S.load _ _ _ _ _ _ _ hsc hkl hv0 hvr hcl hs
            refine ⟨fun _ => h4, fun _ => ⟨fun e => absurd e hia, h3⟩, fun _ _ => h2, fun _ _ => h1, ?_⟩
            intro o hks; rw [hkl] at hks; cases hks
          · cases he1 : eval L e v1 with
            | none =>
              have := evals_get hvs 1
              rw [hv1, Option.bind_some, he1] at this
              have hlen : vs.length ≤ 1 := List.getElem?_eq_none_iff.mp this
              -- all operands have values
              have : ∀ {os : List (Opd L.C)} {vs : List L.V}, evals L e os = some vs → vs.length = os.length := by
                intro os
                induction os with
                | nil => intro vs h; simp only [evals, Option.some.injEq] at h; subst h; rfl
                | cons o os ih =>
                  intro vs h
                  simp only [evals] at h
                  split at h
                  · rename_i e2; simp only [Option.some.injEq] at h; subst h; simp [ih e2]
                  · cases h
              have h2 := this hvs
              have h3 := (List.getElem?_eq_some_iff.mp hv1).1
              omega
            | some w =>
              have hw : vs[1]? = some w := by rw [evals_get hvs 1, hv1]; exact he1
              obtain ⟨h1, h2, h3⟩ := S.store _ _ _ _ _ _ _ _ hsc hks hv0 hw hvr hcl hs
              refine ⟨fun _ => h3, fun _ => ⟨fun e => absurd e hia, h2⟩, fun _ hnw => absurd (.inr ⟨hks, h0⟩) hnw, ?_, ?_⟩
              · intro hkl; rw [hks] at hkl; cases hkl
              · intro o _ _ ho
                rw [hv1] at ho
                cases ho
                exact ⟨w, he1, h1⟩
        · have hall : ∀ w ∈ vs, ¬ S.touch k w := by
            intro w hw
            obtain ⟨n, hn⟩ := List.getElem?_of_mem hw
            exact hbase n w hn (fun h => hu (List.mem_of_getElem? h))
          have hsl : S.slot i.op ≠ some k := by
            intro h
            have := V.distinct b0 B0 i0 b B i hB0 hi0 (hid0 ▸ ha) hB him k hsl0 h
            exact hia (this.trans hid0)
          obtain ⟨h1, h2, h3⟩ := S.other _ _ _ _ _ _ _ hsl hall hcl hs
          refine ⟨fun _ => h3, fun _ => ⟨fun e => absurd e hia, h2⟩, fun _ _ => h1, ?_, ?_⟩
          · intro _ h; exact absurd (List.mem_of_getElem? h) hu
          · intro o _ h; exact absurd (List.mem_of_getElem? h) hu
      · -- still in front of the allocation: another allocation
        obtain ⟨Be, je, ie, hBe, hie, hide, _, hlead⟩ := V.lead a ha
        have hbe : b = F.entry := by
          by_contra hne
          exact hav (V.avail P ha hb hne j)
        subst hbe
        rw [hBe] at hB
        cases hB
        have hlt : j < je := by
          by_contra hge
          have hge : je ≤ j := by omega
          rcases Nat.lt_or_eq_of_le hge with hlt | heq
          · refine hav ⟨F.entry, by rw [← hide]; exact Inst.defIn hBe hie, Dom.dominates_refl, fun _ => ⟨B, hBe, .inr ?_⟩⟩
            refine List.mem_map.mpr ⟨ie, ?_, hide⟩
            obtain ⟨h1, h2⟩ := List.getElem?_eq_some_iff.mp hie
            rw [List.mem_iff_getElem]
            refine ⟨je, by rw [List.length_take]; omega, ?_⟩
            rw [List.getElem_take, h2]
          · subst heq
            rw [hi] at hie
            cases hie
            exact hia hide
        obtain ⟨s, hks⟩ := hlead j hlt i hi
        obtain ⟨k', h1, h2, _, _⟩ := S.alloca _ _ _ _ _ _ _ hks hs
        have hkk : k ≠ k' := by
          rintro rfl
          have := V.distinct b0 B0 i0 F.entry B i hB0 hi0 (hid0 ▸ ha) hBe him k hsl0 h1
          exact hia (this.trans hid0)
        have hnu : Opd.inst a ∉ i.args := fun hu => hav (P.use_avail hBe hb hi hu)
        refine ⟨fun _ => h2 ▸ S.addrOther _ _ hkk, ?_, fun h => absurd h hav, ?_, ?_⟩
        · intro h
          rcases avail_succ hBe hi h with h | h
          · exact absurd h hav
          · exact absurd h.symm hia
        · intro _ h; exact absurd (List.mem_of_getElem? h) hnu
        · intro o _ h; exact absurd (List.mem_of_getElem? h) hnu
  refine ⟨fun a ha k hk => ?_, fun a ha k hk => ?_⟩
  · obtain ⟨h1, h2, _⟩ := main a ha k hk
    refine ⟨fun x w hx hw => ?_, fun hav => ?_⟩
    · unfold setEnv at hw
      split at hw
      · rename_i e
        cases hw
        exact h1 (fun e' => hx (e.trans e'))
      · exact (h a ha k hk).1 x w hx hw
    · obtain ⟨h3, h4⟩ := h2 hav
      refine ⟨?_, h4⟩
      unfold setEnv
      split
      · rename_i e; rw [(h3 e.symm).1]
      · rename_i hne
        rcases avail_succ hB hi hav with h5 | h5
        · exact ((h a ha k hk).2 h5).1
        · exact absurd h5 hne
  · obtain ⟨h1, h2, h3, h4, h5⟩ := main a ha k hk
    refine ⟨fun e => ?_, h3, h4, h5⟩
    have hav : Avail F b (j + 1) a := by
      refine ⟨b, e ▸ Inst.defIn hB hi, Dom.dominates_refl, fun _ => ⟨B, hB, .inr ?_⟩⟩
      rw [List.take_succ, hi, List.map_append, List.mem_append]
      simp [e]
    exact ((h2 hav).1 e).2

end
end Cmmc.SSA
