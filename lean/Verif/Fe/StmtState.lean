import Verif.Fe.StmtMono
/-!
# Scopes and declarations
-/
namespace Cmmc.Fe
open Cmmc

/-- declare in the innermost scope -/
def addTop (new : List SE) : List (List SE) → List (List SE)
  | [] => []
  | sc :: Γ => (new ++ sc) :: Γ

theorem addTop_nil (Γ : List (List SE)) : addTop [] Γ = Γ := by cases Γ <;> rfl

theorem addTop_add (n1 n2 : List SE) (Γ : List (List SE)) : addTop n2 (addTop n1 Γ) = addTop (n2 ++ n1) Γ := by
  cases Γ <;> simp [addTop]

theorem mem_addTop {n : List SE} {Γ : List (List SE)} {e : SE} (h : e ∈ Γ.flatten) : e ∈ (addTop n Γ).flatten := by
  cases Γ with
  | nil => exact h
  | cons sc Γ => simp only [addTop, List.flatten_cons, List.mem_append] at h ⊢; tauto

theorem stat_push {k : String → Option (Wd × Nat)} {Γ : List (List SE)} {c : Ctx} (h : Stat k Γ c) : Stat k ([] :: Γ) c.pushScope where
  scopes := by simp [Ctx.pushScope, h.scopes]
  vars := h.vars
  nodup sc hs := by
    rcases List.mem_cons.1 hs with rfl | hs
    · exact List.nodup_nil
    · exact h.nodup sc hs
  ok := h.ok
  opd := h.opd
  inj := h.inj
  cv := h.cv
  cvt := h.cvt
  cbk := h.cbk
  glob := h.glob

theorem lookup_filter {α β : Type} [DecidableEq α] (l : List (α × β)) {a o : α} (h : a ≠ o) :
    (l.filter (fun e => !decide (e.1 = o))).lookup a = l.lookup a := by
  induction l with
  | nil => rfl
  | cons p l ih =>
    rcases p with ⟨x, y⟩
    by_cases hx : x = o
    · subst hx
      rw [List.filter_cons_of_neg (by simp), ih, List.lookup_cons]
      have : (a == x) = false := by simpa using h
      rw [this]
    · rw [List.filter_cons_of_pos (by simpa using hx), List.lookup_cons, List.lookup_cons, ih]

theorem popNames_ok (l : List SE) : ∀ (sc : List SE) (vars : String → List QVal) (cb : List (Opd × Wd × Nat)),
    (∀ x, vars x = ((sc ++ l).filter (fun e => e.name == x)).map SE.q) →
    (∀ x, (popNames (sc.map SE.name) (vars, cb)).1 x = (l.filter (fun e => e.name == x)).map SE.q) ∧
    (∀ o, (∀ e ∈ sc, e.o ≠ o) → (popNames (sc.map SE.name) (vars, cb)).2.lookup o = cb.lookup o) ∧
    (∀ p ∈ (popNames (sc.map SE.name) (vars, cb)).2, p ∈ cb) := by
  intro sc
  induction sc with
  | nil => intro vars cb h; exact ⟨h, fun _ _ => rfl, fun _ hp => hp⟩
  | cons e sc ih =>
    intro vars cb h
    have he : vars e.name = e.q :: ((sc ++ l).filter (fun e' => e'.name == e.name)).map SE.q := by
      rw [h e.name, List.cons_append, List.filter_cons_of_pos (by simp)]; rfl
    simp only [List.map_cons, popNames, he]
    obtain ⟨h1, h2, h3⟩ := ih (fun y => if y = e.name then (vars y).tail else vars y) (cb.filter (fun p => !decide (p.1 = e.q.o))) (by
      intro x
      by_cases hx : x = e.name
      · subst hx; simp [he]
      · simp only [hx, if_false, h x, List.cons_append]
        rw [List.filter_cons_of_neg (by simpa using fun h => hx h.symm)])
    refine ⟨h1, fun o ho => ?_, fun p hp => ?_⟩
    · rw [h2 o (fun e' he' => ho e' (by simp [he']))]
      exact lookup_filter cb (fun h => ho e (by simp) h.symm)
    · exact (List.mem_filter.1 (h3 p hp)).1

theorem nodup_names_inj {sc : List SE} (h : (sc.map SE.name).Nodup) : sc.Nodup := List.Nodup.of_map _ h

/-- the variables of a scope are not those of the outer scopes -/
def Fresh (sc : List SE) (l : List SE) : Prop := ∀ e ∈ sc, ∀ e' ∈ l, e.o ≠ e'.o

theorem stat_pop {k : String → Option (Wd × Nat)} {sc : List SE} {Γ : List (List SE)} {c c' : Ctx} (h : Stat k (sc :: Γ) c)
    (hf : Fresh sc Γ.flatten) (hp : c.popScope = some c') : Stat k Γ c' := by
  obtain ⟨s, scs, hs, rfl⟩ := popScope_eq hp
  rw [h.scopes] at hs
  simp only [List.map_cons, List.cons.injEq] at hs
  obtain ⟨rfl, rfl⟩ := hs
  obtain ⟨h1, h2, h3⟩ := popNames_ok Γ.flatten sc c.vars c.cb (by intro x; rw [h.vars x]; simp)
  have hm : ∀ e ∈ Γ.flatten, e ∈ (sc :: Γ).flatten := fun e he => by simp only [List.flatten_cons, List.mem_append]; exact Or.inr he
  exact {
    scopes := rfl
    vars := h1
    nodup := fun s hs => h.nodup s (by simp [hs])
    ok := fun e he => h.ok e (hm e he)
    opd := fun e he => h.opd e (hm e he)
    inj := fun e he e' he' => h.inj e (hm e he) e' (hm e' he')
    cv := fun e he => by rw [← h.cv e (hm e he)]; exact h2 e.o (fun e' he' => hf e' he' e he)
    cvt := fun e he => h.cvt e (hm e he)
    cbk := fun p hp => h.cbk p (h3 p hp)
    glob := fun e he => h.glob e (hm e he) }

/-- a new slot has no constant binding -/
theorem stat_noConst {k : String → Option (Wd × Nat)} {Γ : List (List SE)} {c : Ctx} (h : Stat k Γ c) :
    c.cb.lookup (.inst (2 * c.slots.length)) = none := by
  rcases hl : c.cb.lookup (.inst (2 * c.slots.length)) with _ | p
  · exact hl
  · rcases h.cbk _ (lookup_mem hl) with ⟨g, hg⟩ | ⟨k', hk, hk'⟩
    · cases hg
    · simp only [SSA.Opd.inst.injEq] at hk'; omega

/-- a declared variable -/
theorem stat_decl {k : String → Option (Wd × Nat)} {Γ : List (List SE)} {c c2 c' : Ctx} (h : Stat k Γ c) {x : String} {ty : Ty} {sg cst : Bool}
    {cv : Option (Wd × Nat)} (hv : c2.vars = c.vars) (hs : c2.scopes = c.scopes) (hsl : c2.slots = c.slots ++ [ty.cnt]) (hok : ty.ok = true)
    (hcb : c2.cb = match cv with | some p => (.inst (2 * c.slots.length), p) :: c.cb | none => c.cb)
    (hcv : ∀ p, cv = some p → cst = true ∧ ty = .int p.1)
    (ha : c2.addId x ⟨.inst (2 * c.slots.length), .lv ty sg cst⟩ = some c') :
    Stat k (addTop [⟨x, .inst (2 * c.slots.length), ty, sg, cst, cv⟩] Γ) c' ∧
      (∀ e ∈ Γ.flatten, e.o ≠ .inst (2 * c.slots.length)) ∧
      (addTop [⟨x, .inst (2 * c.slots.length), ty, sg, cst, cv⟩] Γ).flatten = ⟨x, .inst (2 * c.slots.length), ty, sg, cst, cv⟩ :: Γ.flatten := by
  obtain ⟨s, scs, hsc, hx, rfl⟩ := addId_eq ha
  rw [hs, h.scopes] at hsc
  rcases Γ with _ | ⟨sc, Γ⟩
  · cases hsc
  simp only [List.map_cons, List.cons.injEq] at hsc
  obtain ⟨rfl, rfl⟩ := hsc
  have hfresh : ∀ e ∈ (sc :: Γ).flatten, e.o ≠ .inst (2 * c.slots.length) := by
    intro e he heq
    rcases h.opd e he with ⟨k', hk, hz⟩ | ⟨g, hg⟩
    · rw [hk] at heq
      have : k' = c.slots.length := by simpa using heq
      rw [this] at hz
      simp at hz
    · rw [hg] at heq; cases heq
  have hlook := stat_noConst h
  have hflat : (addTop [⟨x, .inst (2 * c.slots.length), ty, sg, cst, cv⟩] (sc :: Γ)).flatten =
      ⟨x, .inst (2 * c.slots.length), ty, sg, cst, cv⟩ :: (sc :: Γ).flatten := by simp [addTop]
  refine ⟨?_, hfresh, hflat⟩
  have hmem : ∀ {e}, e ∈ (addTop [⟨x, .inst (2 * c.slots.length), ty, sg, cst, cv⟩] (sc :: Γ)).flatten →
      e = ⟨x, .inst (2 * c.slots.length), ty, sg, cst, cv⟩ ∨ e ∈ (sc :: Γ).flatten := by
    intro e he; rw [hflat] at he; exact List.mem_cons.1 he
  constructor
  · rfl
  · intro y
    rw [hflat]
    dsimp only
    rw [hv, h.vars y]
    by_cases hy : y = x
    · subst hy
      rw [if_pos rfl, List.filter_cons_of_pos (by simp)]; rfl
    · rw [if_neg hy, List.filter_cons_of_neg (by simpa using fun h => hy h.symm)]
  · intro s hs
    simp only [addTop, List.mem_cons] at hs
    rcases hs with rfl | hs
    · simp only [List.singleton_append, List.map_cons, List.nodup_cons]
      exact ⟨hx, h.nodup sc (by simp)⟩
    · exact h.nodup s (by simp [hs])
  · intro e he
    rcases hmem he with rfl | he
    · exact hok
    · exact h.ok e he
  · intro e he
    dsimp only
    rw [hsl]
    rcases hmem he with rfl | he
    · exact Or.inl ⟨_, rfl, by simp⟩
    · exact (h.opd e he).imp (fun ⟨k', h1, h2⟩ => ⟨k', h1, prefix_get (List.prefix_append _ _) h2⟩) id
  · intro e he e' he' heq
    rcases hmem he with rfl | he <;> rcases hmem he' with rfl | he'
    · rfl
    · exact absurd heq.symm (hfresh e' he')
    · exact absurd heq (hfresh e he)
    · exact h.inj e he e' he' heq
  · intro e he
    dsimp only
    rw [hcb]
    rcases hmem he with rfl | he
    · cases cv with
      | none => exact hlook
      | some p => simp [List.lookup_cons]
    · rw [← h.cv e he]
      cases cv with
      | none => rfl
      | some p =>
        dsimp only
        rw [List.lookup_cons]
        have : (e.o == SSA.Opd.inst (2 * c.slots.length)) = false := by
          rw [beq_eq_false_iff_ne]; exact hfresh e (by assumption)
        rw [this]
  · intro e he p hp
    rcases hmem he with rfl | he
    · exact hcv p hp
    · exact h.cvt e he p hp
  · intro p hp
    dsimp only at hp ⊢
    rw [hsl, List.length_append]
    rw [hcb] at hp
    have hold : ∀ p ∈ c.cb, (∃ g, p.1 = .cst (.glob g)) ∨ ∃ k, k < c.slots.length + [ty.cnt].length ∧ p.1 = .inst (2 * k) :=
      fun p hp => (h.cbk p hp).imp id (fun ⟨k, h1, h2⟩ => ⟨k, by simp; omega, h2⟩)
    cases cv with
    | none => exact hold p hp
    | some p' =>
      rcases List.mem_cons.1 hp with rfl | hp
      · exact Or.inr ⟨_, by simp, rfl⟩
      · exact hold p hp
  · intro e he g hg
    rcases hmem he with rfl | he
    · cases hg
    · exact h.glob e he g hg

/-- reserving a stack slot -/
theorem stat_alloc {k : String → Option (Wd × Nat)} {Γ : List (List SE)} {c : Ctx} (h : Stat k Γ c) (z : Int) : Stat k Γ (c.alloc z).2 where
  scopes := h.scopes
  vars := h.vars
  nodup := h.nodup
  ok := h.ok
  opd e he := (h.opd e he).imp (fun ⟨k', h1, h2⟩ => ⟨k', h1, prefix_get (List.prefix_append _ _) h2⟩) id
  inj := h.inj
  cv := h.cv
  cvt := h.cvt
  cbk p hp := (h.cbk p hp).imp id (fun ⟨k, h1, h2⟩ => ⟨k, by show k < (c.slots ++ [z]).length; simp; omega, h2⟩)
  glob := h.glob

section
variable {X : Ext} {K : Cfg X} {Γ : List (List SE)} {ob : Opd → Obj}

/-- the object of a new variable -/
def obNew (ob : Opd → Obj) (o : Opd) (l : Nat) : Opd → Obj := fun o' => if o' = o then .loc l else ob o'

theorem den_addTop {e : SE} {l : Nat} (hΓ : Γ ≠ []) (hf : ∀ e' ∈ Γ.flatten, e'.o ≠ e.o) :
    den (addTop [e] Γ) (obNew ob e.o l) = (den Γ ob).add e.name ⟨.loc l, e.ty, e.sg, e.cst⟩ := by
  cases Γ with
  | nil => exact absurd rfl hΓ
  | cons sc Γ =>
    have key : ∀ e' ∈ (sc :: Γ).flatten, obNew ob e.o l e'.o = ob e'.o := fun e' he' => by simp [obNew, hf e' he']
    have k1 : sc.map (fun e' => (e'.name, (⟨obNew ob e.o l e'.o, e'.ty, e'.sg, e'.cst⟩ : Ent))) =
        sc.map (fun e' => (e'.name, (⟨ob e'.o, e'.ty, e'.sg, e'.cst⟩ : Ent))) :=
      List.map_congr_left (fun e' he' => by rw [key e' (by simp [he'])])
    have k2 : Γ.map (fun sc => sc.map (fun e' => (e'.name, (⟨obNew ob e.o l e'.o, e'.ty, e'.sg, e'.cst⟩ : Ent)))) =
        Γ.map (fun sc => sc.map (fun e' => (e'.name, (⟨ob e'.o, e'.ty, e'.sg, e'.cst⟩ : Ent)))) := by
      refine List.map_congr_left (fun s hs => List.map_congr_left (fun e' he' => ?_))
      rw [key e' (by simp only [List.flatten_cons, List.mem_append]; exact Or.inr (List.mem_flatten.2 ⟨s, hs, he'⟩))]
    simp only [den, addTop, List.map_cons, List.singleton_append, SEnv.add, k1, k2]
    simp [obNew]

/-- a new object, and the memory after its initialisation -/
theorem dyn_decl {S : SSt X} {env : Env} {m : Mem X} (hd : Dyn K Γ ob S env m) {k : Nat} {e : SE} (he : e.o = .inst (2 * k))
    (ho : ∀ e' ∈ Γ.flatten, (∃ k, e'.o = .inst (2 * k)) ∨ ∃ g, e'.o = .cst (.glob g))
    (hf : ∀ e' ∈ Γ.flatten, e'.o ≠ e.o) {v : Option Int} {mm : Nat → Int → Option Nat}
    (hm : ∀ k' i, k' ≠ k → mm k' i = m.mem k' i)
    (hv : ∀ x, v = some x → IT.has ⟨e.ty.base, e.sg⟩ x = true ∧ mm k 0 = some (raw e.ty.base x) ∧ ∀ p, e.cv = some p → raw p.1 x = p.2)
    {Γ' : List (List SE)} (hΓ : ∀ e', e' ∈ Γ'.flatten → e' = e ∨ e' ∈ Γ.flatten) :
    Dyn K Γ' (obNew ob e.o S.next) (newObj S v) env { m with mem := mm } := by
  have obe : obNew ob e.o S.next e.o = .loc S.next := by simp [obNew]
  have obo : ∀ e' ∈ Γ.flatten, obNew ob e.o S.next e'.o = ob e'.o := fun e' he' => by simp [obNew, hf e' he']
  have hlt : ∀ e' ∈ Γ.flatten, ∀ l, ob e'.o = .loc l → l < S.next := by
    intro e' he' l hl
    rcases ho e' he' with ⟨i, hi⟩ | ⟨g, hg⟩
    · obtain ⟨l', h1, h2⟩ := hd.obl e' he' _ hi
      rw [h1] at hl
      simp only [Obj.loc.injEq] at hl
      omega
    · rw [hd.obg e' he' g hg] at hl
      cases hl
  constructor
  · exact hd.slot
  · intro e' he' i hi
    rcases hΓ e' he' with rfl | h
    · exact ⟨_, obe, Nat.lt_succ_self _⟩
    · rw [obo e' h]
      obtain ⟨l, h1, h2⟩ := hd.obl e' h i hi
      exact ⟨l, h1, Nat.lt_succ_of_lt h2⟩
  · intro e' he' g hg
    rcases hΓ e' he' with rfl | h
    · rw [he] at hg; cases hg
    · rw [obo e' h]; exact hd.obg e' h g hg
  · intro e1 h1 e2 h2 heq
    rcases hΓ e1 h1 with h | h <;> rcases hΓ e2 h2 with h' | h'
    · rw [h, h']
    · rw [h, obe, obo e2 h'] at heq
      exact absurd (hlt e2 h' _ heq.symm) (Nat.lt_irrefl _)
    · rw [h', obe, obo e1 h] at heq
      exact absurd (hlt e1 h _ heq) (Nat.lt_irrefl _)
    · rw [obo e1 h, obo e2 h'] at heq
      exact hd.inj e1 h e2 h' heq
  · intro e' he' k' l hk hl i x hx
    rcases hΓ e' he' with h | h
    · subst h
      rw [obe] at hl
      simp only [Obj.loc.injEq] at hl
      subst hl
      rw [he] at hk
      have hk2 : k' = k := by simpa using hk.symm
      subst hk2
      simp only [newObj, if_true] at hx
      by_cases hi : i = 0
      · subst hi
        simp only [if_true] at hx
        exact ⟨(hv x hx).1, (hv x hx).2.1⟩
      · simp only [hi, if_false] at hx; cases hx
    · rw [obo e' h] at hl
      have hne : l ≠ S.next := Nat.ne_of_lt (hlt e' h l hl)
      simp only [newObj, hne, if_false] at hx
      have hkk : k' ≠ k := by
        intro hkk
        exact hf e' h (by rw [hk, he, hkk])
      show _ ∧ mm k' i = _
      rw [hm k' i hkk]
      exact hd.mem e' h k' l hk hl i x hx
  · intro e' he' l p x hp hl hx
    rcases hΓ e' he' with h | h
    · subst h
      rw [obe] at hl
      simp only [Obj.loc.injEq] at hl
      subst hl
      simp only [newObj, if_true] at hx
      exact (hv x hx).2.2 p hp
    · rw [obo e' h] at hl
      have hne : l ≠ S.next := Nat.ne_of_lt (hlt e' h l hl)
      simp only [newObj, hne, if_false] at hx
      exact hd.cv e' h l p x hp hl hx
  · exact hd.w
  · exact hd.inv

end
end Cmmc.Fe
