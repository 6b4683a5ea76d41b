import Verif.Fe.StmtMono
/-!
# Emitted code is SSA: the invariant

`Gh` annotates every block with the instructions that have been executed whenever it is entered (`A`) and says which blocks were created
behind a terminator (`D`): such blocks cannot be entered. `Inv` says that the code emitted so far agrees with the annotation.
-/
namespace Cmmc.Fe
open Cmmc

/-- instructions of a list -/
def ids : List Raw → List Nat
  | [] => []
  | .phi p :: rs => p.id :: ids rs
  | .inst i :: rs => i.id :: ids rs
  | .term _ :: rs => ids rs

/-- instructions before the first terminator -/
def idsT : List Raw → List Nat
  | [] => []
  | .phi p :: rs => p.id :: idsT rs
  | .inst i :: rs => i.id :: idsT rs
  | .term _ :: _ => []

def firstTerm : List Raw → Option (SSA.Term Cst)
  | [] => none
  | .term t :: _ => some t
  | _ :: rs => firstTerm rs

theorem ids_append (a b : List Raw) : ids (a ++ b) = ids a ++ ids b := by
  induction a with
  | nil => rfl
  | cons r a ih => cases r <;> simp [ids, ih]

theorem idsT_append_none {a : List Raw} (b : List Raw) (h : firstTerm a = none) : idsT (a ++ b) = idsT a ++ idsT b := by
  induction a with
  | nil => rfl
  | cons r a ih =>
    cases r with
    | term t => cases h
    | phi p => simp only [List.cons_append, idsT, ih h]
    | inst i => simp only [List.cons_append, idsT, ih h]

theorem idsT_append_some {a : List Raw} (b : List Raw) {t : SSA.Term Cst} (h : firstTerm a = some t) : idsT (a ++ b) = idsT a := by
  induction a with
  | nil => cases h
  | cons r a ih =>
    cases r with
    | term t => rfl
    | phi p => simp only [List.cons_append, idsT, ih h]
    | inst i => simp only [List.cons_append, idsT, ih h]

theorem firstTerm_append_none {a : List Raw} (b : List Raw) (h : firstTerm a = none) : firstTerm (a ++ b) = firstTerm b := by
  induction a with
  | nil => rfl
  | cons r a ih =>
    cases r with
    | term t => cases h
    | phi p => exact ih h
    | inst i => exact ih h

theorem firstTerm_append_some {a : List Raw} (b : List Raw) {t : SSA.Term Cst} (h : firstTerm a = some t) : firstTerm (a ++ b) = some t := by
  induction a with
  | nil => cases h
  | cons r a ih =>
    cases r with
    | term t => exact h
    | phi p => exact ih h
    | inst i => exact ih h

theorem firstTerm_prefix {a b : List Raw} {t : SSA.Term Cst} (h : a <+: b) (ha : firstTerm a = some t) : firstTerm b = some t := by
  obtain ⟨c, rfl⟩ := h
  exact firstTerm_append_some c ha

theorem idsT_prefix {a b : List Raw} (h : a <+: b) {i : Nat} (ha : i ∈ idsT a) : i ∈ idsT b := by
  obtain ⟨c, rfl⟩ := h
  cases h : firstTerm a with
  | none => rw [idsT_append_none c h]; exact List.mem_append_left _ ha
  | some t => rw [idsT_append_some c h]; exact ha

theorem idsT_sub {a : List Raw} {i : Nat} (h : i ∈ idsT a) : i ∈ ids a := by
  induction a with
  | nil => exact h
  | cons r a ih =>
    cases r with
    | term t => simp [idsT] at h
    | phi p =>
      simp only [idsT, ids, List.mem_cons] at h ⊢
      exact h.imp id ih
    | inst j =>
      simp only [idsT, ids, List.mem_cons] at h ⊢
      exact h.imp id ih

theorem firstTerm_mem {a : List Raw} {t : SSA.Term Cst} (h : firstTerm a = some t) : Raw.term t ∈ a := by
  induction a with
  | nil => cases h
  | cons r a ih =>
    cases r with
    | term u => simp only [firstTerm, Option.some.injEq] at h; simp [h]
    | phi p => exact List.mem_cons_of_mem _ (ih h)
    | inst i => exact List.mem_cons_of_mem _ (ih h)

/-- the annotation -/
structure Gh where
  A : Nat → Nat → Prop
  D : Nat → Prop

def Gh.add (G : Gh) (b : Nat) (S : Nat → Prop) (d : Prop) : Gh where
  A := fun x => if x = b then S else G.A x
  D := fun x => if x = b then d else G.D x

/-- one of the first `n` stack slots -/
def slot (n x : Nat) : Prop := ∃ k < n, x = 2 * k

theorem slot_mono {n m x : Nat} (h : n ≤ m) (hs : slot n x) : slot m x := by
  obtain ⟨k, hk, rfl⟩ := hs; exact ⟨k, by omega, rfl⟩

/-- code up to the first terminator: operands are available, and jumps go to blocks that need no more than what is available -/
def chk (G : Gh) (n : Nat) : (Nat → Prop) → List Raw → Prop
  | _, [] => True
  | S, .phi p :: rs => chk G n (fun i => S i ∨ i = p.id) rs
  | S, .inst i :: rs => (∀ x, SSA.Opd.inst x ∈ i.args → slot n x ∨ S x) ∧ chk G n (fun x => S x ∨ x = i.id) rs
  | S, .term t :: _ => (∀ x, SSA.Opd.inst x ∈ t.args → slot n x ∨ S x) ∧ ∀ y ∈ t.targets, ¬ G.D y ∧ ∀ i, G.A y i → S i

theorem chk_congr {G : Gh} {n : Nat} : ∀ {S S' : Nat → Prop} {rs : List Raw}, (∀ i, S i ↔ S' i) → chk G n S rs → chk G n S' rs := by
  intro S S' rs
  induction rs generalizing S S' with
  | nil => intros; trivial
  | cons r rs ih =>
    intro h hc
    cases r with
    | phi p => exact ih (fun i => or_congr (h i) Iff.rfl) hc
    | inst j => exact ⟨fun x hx => (hc.1 x hx).imp id (h x).1, ih (fun i => or_congr (h i) Iff.rfl) hc.2⟩
    | term t => exact ⟨fun x hx => (hc.1 x hx).imp id (h x).1, fun y hy => ⟨(hc.2 y hy).1, fun i hi => (h i).1 ((hc.2 y hy).2 i hi)⟩⟩

theorem chk_slots {G : Gh} {n m : Nat} (hnm : n ≤ m) : ∀ {S : Nat → Prop} {rs : List Raw}, chk G n S rs → chk G m S rs := by
  intro S rs
  induction rs generalizing S with
  | nil => intros; trivial
  | cons r rs ih =>
    intro hc
    cases r with
    | phi p => exact ih hc
    | inst j => exact ⟨fun x hx => (hc.1 x hx).imp (slot_mono hnm) id, ih hc.2⟩
    | term t => exact ⟨fun x hx => (hc.1 x hx).imp (slot_mono hnm) id, hc.2⟩

theorem chk_ghost {G G' : Gh} {n N : Nat} (h : ∀ b < N, G'.A b = G.A b ∧ G'.D b = G.D b) : ∀ {S : Nat → Prop} {rs : List Raw},
    (∀ t, Raw.term t ∈ rs → ∀ y ∈ t.targets, y < N) → chk G n S rs → chk G' n S rs := by
  intro S rs
  induction rs generalizing S with
  | nil => intros; trivial
  | cons r rs ih =>
    intro hb hc
    have hb' : ∀ t, Raw.term t ∈ rs → ∀ y ∈ t.targets, y < N := fun t ht => hb t (List.mem_cons_of_mem _ ht)
    cases r with
    | phi p => exact ih hb' hc
    | inst j => exact ⟨hc.1, ih hb' hc.2⟩
    | term t =>
      refine ⟨hc.1, fun y hy => ?_⟩
      obtain ⟨h1, h2⟩ := h y (hb t (by simp) y hy)
      rw [h1, h2]
      exact hc.2 y hy

theorem chk_append {G : Gh} {n : Nat} : ∀ {S : Nat → Prop} {a b : List Raw}, chk G n S a →
    (firstTerm a = none → chk G n (fun i => S i ∨ i ∈ idsT a) b) → chk G n S (a ++ b) := by
  intro S a
  induction a generalizing S with
  | nil => intro b _ h; exact chk_congr (fun i => by simp [idsT]) (h rfl)
  | cons r a ih =>
    intro b ha hb
    cases r with
    | phi p =>
      refine ih ha fun ht => chk_congr (fun i => ?_) (hb ht)
      simp only [idsT, List.mem_cons]; rw [or_assoc]
    | inst j =>
      refine ⟨ha.1, ih ha.2 fun ht => chk_congr (fun i => ?_) (hb ht)⟩
      simp only [idsT, List.mem_cons]; rw [or_assoc]
    | term t => exact ha

/-- execution can get to the end of block `b` -/
def LiveB (G : Gh) (c : Ctx) (b : Nat) : Prop := ¬ G.D b ∧ firstTerm (c.code b) = none
/-- instruction `i` has been executed at the end of block `b` -/
def AvB (G : Gh) (c : Ctx) (b i : Nat) : Prop := G.A b i ∨ i ∈ idsT (c.code b)
/-- at the insert point -/
def Live (G : Gh) (c : Ctx) : Prop := LiveB G c c.cur
def Av (G : Gh) (c : Ctx) (i : Nat) : Prop := AvB G c c.cur i
/-- the operand can be used at the end of block `b` -/
def avOB (G : Gh) (c : Ctx) (b : Nat) (o : Opd) : Prop := ∀ x, o = .inst x → slot c.slots.length x ∨ AvB G c b x
def avO (G : Gh) (c : Ctx) (o : Opd) : Prop := avOB G c c.cur o

/-- a phi against the code -/
structure PhiC (G : Gh) (c : Ctx) (b : Nat) (p : SSA.Phi Cst) : Prop where
  src : ∀ q o, (q, o) ∈ p.inc → q < c.nb ∧ ¬ G.D q ∧ (∃ t, firstTerm (c.code q) = some t ∧ b ∈ t.targets) ∧ avOB G c q o
  all : ∀ q t, Raw.term t ∈ c.code q → b ∈ t.targets → ∃ v, (q, v) ∈ p.inc

/-- code emitted so far agrees with the annotation -/
structure Inv (G : Gh) (c : Ctx) : Prop where
  wf : Wf c
  tgt : ∀ b t, Raw.term t ∈ c.code b → ∀ y ∈ t.targets, y < c.nb ∧ y ≠ 0
  lpn : ∀ p ∈ c.loops, p.1 < c.nb ∧ p.2 < c.nb
  chk : ∀ b < c.nb, ¬ G.D b → chk G c.slots.length (G.A b) (c.code b)
  phi : ∀ b p, b < c.nb → ¬ G.D b → Raw.phi p ∈ c.code b → PhiC G c b p
  idn : ∀ b, (ids (c.code b)).Nodup
  idb : ∀ b, ∀ i ∈ ids (c.code b), ∃ j < c.nv, i = 2 * j + 1
  idd : ∀ b b', b ≠ b' → ∀ i ∈ ids (c.code b), i ∉ ids (c.code b')
  av : ∀ b < c.nb, ∀ i, G.A b i → (∃ j < c.nv, i = 2 * j + 1) ∧ i ∉ ids (c.code b)
  vars : ∀ x, ∀ q ∈ c.vars x, ∀ i, q.o = .inst i → slot c.slots.length i
  ent : ¬ G.D 0 ∧ ∀ i, ¬ G.A 0 i

/-- blocks that `break` and `continue` jump to -/
def lpT (c : Ctx) (y : Nat) : Prop := ∃ p ∈ c.loops, y = p.1 ∨ y = p.2

/-- the state `c'` reached from `c` -/
structure Res (G : Gh) (c : Ctx) (G' : Gh) (c' : Ctx) : Prop where
  sm : SM c c'
  agree : ∀ b < c.nb, G'.A b = G.A b ∧ G'.D b = G.D b
  inv : Inv G' c'
  back : Live G' c' → Live G c
  mono : Live G' c' → ∀ i, Av G c i → Av G' c' i
  tg : ∀ b t, Raw.term t ∈ c'.code b → Raw.term t ∈ c.code b ∨ ∀ y ∈ t.targets, c.nb ≤ y ∨ lpT c y
  ph : ∀ b < c.nb, ∀ p, Raw.phi p ∈ c'.code b → Raw.phi p ∈ c.code b

theorem Res.refl {G : Gh} {c : Ctx} (h : Inv G c) : Res G c G c :=
  ⟨SM.refl c, fun _ _ => ⟨rfl, rfl⟩, h, id, fun _ _ => id, fun _ _ => Or.inl, fun _ _ _ => id⟩

theorem Res.trans {G G1 G2 : Gh} {c c1 c2 : Ctx} (h : Res G c G1 c1) (h' : Res G1 c1 G2 c2) : Res G c G2 c2 where
  sm := h.sm.trans h'.sm
  agree b hb := by
    have h1 := h'.agree b (lt_of_lt_of_le hb h.sm.nb)
    have h2 := h.agree b hb
    exact ⟨h1.1.trans h2.1, h1.2.trans h2.2⟩
  inv := h'.inv
  back hl := h.back (h'.back hl)
  mono hl i hi := h'.mono hl i (h.mono (h'.back hl) i hi)
  tg b t ht := by
    rcases h'.tg b t ht with h1 | h1
    · exact h.tg b t h1
    · right
      intro y hy
      rcases h1 y hy with h2 | ⟨p, hp, h2⟩
      · exact Or.inl (h.sm.nb.trans h2)
      · exact Or.inr ⟨p, by rw [← h.sm.loops]; exact hp, h2⟩
  ph b hb p hp := h.ph b hb p (h'.ph b (lt_of_lt_of_le hb h.sm.nb) p hp)

/-! ## primitives -/

theorem mem_push {c : Ctx} {r x : Raw} {b : Nat} : x ∈ (c.push r).code b ↔ x ∈ c.code b ∨ (b = c.cur ∧ x = r) := by
  by_cases hb : b = c.cur
  · simp [Ctx.push, hb]
  · simp [Ctx.push, hb]

theorem push_cur (c : Ctx) (r : Raw) : (c.push r).code c.cur = c.code c.cur ++ [r] := by simp [Ctx.push]

theorem AvB.push {G : Gh} {c : Ctx} {b i : Nat} (h : AvB G c b i) (r : Raw) (k : Nat) : AvB G { c.push r with nv := k } b i := by
  rcases h with h | h
  · exact Or.inl h
  · exact Or.inr (idsT_prefix (push_code c r b) h)

/-- the annotation may grow -/
theorem inv_ghost {G G' : Gh} {c : Ctx} (h : Inv G c) (ha : ∀ b < c.nb, G'.A b = G.A b ∧ G'.D b = G.D b) : Inv G' c where
  wf := h.wf
  tgt := h.tgt
  lpn := h.lpn
  chk b hb hd := by
    rw [(ha b hb).2] at hd
    rw [(ha b hb).1]
    exact chk_ghost ha (fun t ht y hy => (h.tgt b t ht y hy).1) (h.chk b hb hd)
  phi b p hb hd hp := by
    rw [(ha b hb).2] at hd
    have := h.phi b p hb hd hp
    refine ⟨fun q o hq => ?_, this.all⟩
    obtain ⟨h1, h2, h3, h4⟩ := this.src q o hq
    refine ⟨h1, by rw [(ha q h1).2]; exact h2, h3, ?_⟩
    intro x hx
    rcases h4 x hx with h4 | h4
    · exact Or.inl h4
    · right
      unfold AvB at h4 ⊢
      rw [(ha q h1).1]
      exact h4
  idn := h.idn
  idb := h.idb
  idd := h.idd
  av b hb i hi := by rw [(ha b hb).1] at hi; exact h.av b hb i hi
  vars := h.vars
  ent := by
    have h0 : 0 < c.nb := lt_of_le_of_lt (Nat.zero_le _) h.wf.cur
    rw [(ha 0 h0).1, (ha 0 h0).2]
    exact h.ent

theorem avB_ghost {G G' : Gh} {c : Ctx} {b : Nat} (h : G'.A b = G.A b) (i : Nat) : AvB G' c b i ↔ AvB G c b i := by
  unfold AvB; rw [h]

/-- pushing an instruction or terminator -/
theorem inv_push {G : Gh} {c : Ctx} (h : Inv G c) {r : Raw} {k : Nat} (hk : c.nv ≤ k) (hw : Wf (c.push r))
    (hids : ∀ i ∈ ids [r], i = 2 * c.nv + 1 ∧ c.nv < k)
    (hchk : Live G c → chk G c.slots.length (Av G c) [r])
    (htgt : ∀ t, r = .term t → ∀ y ∈ t.targets, y < c.nb ∧ y ≠ 0 ∧ ∀ p, Raw.phi p ∉ c.code y)
    (hphi : ∀ p, r = .phi p → ¬ G.D c.cur → PhiC G c c.cur p) (hone : (ids [r]).Nodup) : Inv G { c.push r with nv := k } where
  wf := ⟨hw.cur, hw.empty, hw.phi, hw.zero⟩
  tgt b t ht y hy := by
    rcases mem_push.1 ht with ht | ⟨_, rfl⟩
    · exact h.tgt b t ht y hy
    · exact ⟨(htgt t rfl y hy).1, (htgt t rfl y hy).2.1⟩
  lpn := h.lpn
  chk b hb hd := by
    by_cases hbc : b = c.cur
    · subst hbc
      show chk G _ _ ((c.push r).code c.cur)
      rw [push_cur]
      exact chk_append (h.chk _ hb hd) (fun ht => hchk ⟨hd, ht⟩)
    · show chk G _ _ ((c.push r).code b)
      rw [push_fix c r hbc]
      exact h.chk b hb hd
  phi b p hb hd hp := by
    have key : PhiC G c b p → (∀ t, r = .term t → b ∉ t.targets) → PhiC G { c.push r with nv := k } b p := by
      intro hp hr
      refine ⟨fun q o hq => ?_, fun q t ht hbt => ?_⟩
      · obtain ⟨h1, h2, ⟨t, h3, h4⟩, h5⟩ := hp.src q o hq
        exact ⟨h1, h2, ⟨t, firstTerm_prefix (push_code c r q) h3, h4⟩, fun x hx => (h5 x hx).imp id (fun h => h.push r k)⟩
      · rcases mem_push.1 ht with ht | ⟨_, rfl⟩
        · exact hp.all q t ht hbt
        · exact absurd hbt (hr t rfl)
    rcases mem_push.1 hp with hp | ⟨rfl, rfl⟩
    · exact key (h.phi b p hb hd hp) (fun t ht hbt => (htgt t ht b hbt).2.2 p hp)
    · exact key (hphi p rfl hd) (fun t ht => by cases ht)
  idn b := by
    by_cases hbc : b = c.cur
    · subst hbc
      show (ids ((c.push r).code c.cur)).Nodup
      rw [push_cur, ids_append, List.nodup_append]
      refine ⟨h.idn _, hone, fun x hx y hy hxy => ?_⟩
      obtain ⟨j, hj, e⟩ := h.idb _ x hx
      have := (hids y hy).1
      omega
    · show (ids ((c.push r).code b)).Nodup
      rw [push_fix c r hbc]
      exact h.idn b
  idb b i hi := by
    by_cases hbc : b = c.cur
    · subst hbc
      replace hi : i ∈ ids ((c.push r).code c.cur) := hi
      rw [push_cur, ids_append, List.mem_append] at hi
      rcases hi with hi | hi
      · obtain ⟨j, hj, e⟩ := h.idb _ i hi
        exact ⟨j, lt_of_lt_of_le hj hk, e⟩
      · exact ⟨c.nv, (hids i hi).2, (hids i hi).1⟩
    · replace hi : i ∈ ids ((c.push r).code b) := hi
      rw [push_fix c r hbc] at hi
      obtain ⟨j, hj, e⟩ := h.idb _ i hi
      exact ⟨j, lt_of_lt_of_le hj hk, e⟩
  idd b b' hbb i hi hi' := by
    replace hi : i ∈ ids ((c.push r).code b) := hi
    replace hi' : i ∈ ids ((c.push r).code b') := hi'
    have new : ∀ b, i ∈ ids ((c.push r).code b) → i ∈ ids (c.code b) ∨ (b = c.cur ∧ i ∈ ids [r]) := by
      intro b hi
      by_cases hbc : b = c.cur
      · subst hbc
        rw [push_cur, ids_append, List.mem_append] at hi
        exact hi.imp id (fun h => ⟨rfl, h⟩)
      · rw [push_fix c r hbc] at hi
        exact Or.inl hi
    rcases new b hi with h1 | ⟨h1, h2⟩ <;> rcases new b' hi' with h3 | ⟨h3, h4⟩
    · exact h.idd b b' hbb i h1 h3
    · obtain ⟨j, hj, e⟩ := h.idb _ i h1
      have := (hids i h4).1
      omega
    · obtain ⟨j, hj, e⟩ := h.idb _ i h3
      have := (hids i h2).1
      omega
    · exact hbb (h1.trans h3.symm)
  av b hb i hi := by
    obtain ⟨⟨j, hj, e⟩, h2⟩ := h.av b hb i hi
    refine ⟨⟨j, lt_of_lt_of_le hj hk, e⟩, fun hi' => ?_⟩
    replace hi' : i ∈ ids ((c.push r).code b) := hi'
    by_cases hbc : b = c.cur
    · subst hbc
      rw [push_cur, ids_append, List.mem_append] at hi'
      rcases hi' with hi' | hi'
      · exact h2 hi'
      · have := (hids i hi').1
        omega
    · rw [push_fix c r hbc] at hi'
      exact h2 hi'
  vars := h.vars
  ent := h.ent

theorem live_push {G : Gh} {c : Ctx} {r : Raw} {k : Nat} (hr : ∀ t, r ≠ .term t) : Live G { c.push r with nv := k } ↔ Live G c := by
  unfold Live LiveB
  show ¬ G.D c.cur ∧ firstTerm ((c.push r).code c.cur) = none ↔ _
  rw [push_cur]
  refine and_congr Iff.rfl ?_
  cases h : firstTerm (c.code c.cur) with
  | none =>
    rw [firstTerm_append_none _ h]
    cases r with
    | term t => exact absurd rfl (hr t)
    | _ => simp [firstTerm]
  | some t => rw [firstTerm_append_some _ h]

theorem not_live_term {G : Gh} {c : Ctx} {t : SSA.Term Cst} : ¬ Live G (c.term t) := by
  intro h
  have := h.2
  unfold Ctx.term at this
  replace this : firstTerm ((c.push (.term t)).code c.cur) = none := this
  rw [push_cur] at this
  cases h : firstTerm (c.code c.cur) with
  | none => rw [firstTerm_append_none _ h] at this; cases this
  | some t => rw [firstTerm_append_some _ h] at this; cases this

end Cmmc.Fe
