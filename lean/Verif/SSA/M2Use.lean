import Verif.SSA.M2Try
/-!
# ScalarMem2Reg: looking up the content of a slot
-/
namespace Cmmc.SSA

section
variable {Op C K : Type} {kind : Op → Kind} {slot : Op → Option K} {F : Func Op C} {vars : List Nat} {Φ Φ' Φ'' : List (Nat × Nat × Nat)} {E E' E'' : List (Nat × Opd C)}
  {opn opn' opn'' : Nat → Prop} {pos : Nat → Nat} {s s' s'' : MS Op C}

/-- the state of the pass when the blocks have been processed up to `pos` -/
structure MInv (kind : Op → Kind) (F : Func Op C) (vars : List Nat) (pos : Nat → Nat) (Φ : List (Nat × Nat × Nat)) (E : List (Nat × Opd C)) (opn : Nat → Prop) (s : MS Op C) : Prop where
  cert : Cert kind F vars Φ E s.G opn
  cln : Cln vars E
  dfd : ∀ a b o, a ∈ vars → s.cur a b = some o → Val kind F Φ E a b (pos b) o
  undef : ∀ a b B j i, a ∈ vars → s.cur a b = none → F.blk b = some B → j < pos b → B.body[j]? = some i → ¬ (kind i.op = .store ∧ i.args[0]? = some (.inst a))
  fin : ∀ b ∈ s.fin, ∀ q Q, Edge F q b → F.blk q = some Q → pos q = Q.body.length
  le : ∀ b B, F.blk b = some B → pos b ≤ B.body.length
  old : ∀ x d, DefIn F x d → x < s.next
  new : ∀ e ∈ Φ, e.1 < s.next

theorem MInv.opnLt (I : MInv kind F vars pos Φ E opn s) {x : Nat} (h : opn x) : x < s.next := by
  obtain ⟨a, b, h⟩ := I.cert.opnNew x h
  exact I.new _ h

theorem MInv.homeLt (I : MInv kind F vars pos Φ E opn s) {x d : Nat} (h : Home F Φ x d) : x < s.next := by
  rcases h with h | ⟨a, h⟩
  · exact I.old x d h
  · exact I.new _ h

theorem MInv.phiLt (I : MInv kind F vars pos Φ E opn s) {b : Nat} {p : Phi C} (h : PhiAt s.G b p) : p.id < s.next := by
  obtain ⟨B, hB, hp⟩ := h
  exact I.homeLt (I.cert.phiHome hB hp)

/-- what looking up variable `a` may change; the phis `X` are in the making -/
structure Ext (a : Nat) (X : Nat → Prop) (Φ : List (Nat × Nat × Nat)) (E : List (Nat × Opd C)) (opn : Nat → Prop) (s : MS Op C)
    (Φ' : List (Nat × Nat × Nat)) (E' : List (Nat × Opd C)) (opn' : Nat → Prop) (s' : MS Op C) : Prop where
  subΦ : ∀ e ∈ Φ, e ∈ Φ'
  subE : ∀ e ∈ E, e ∈ E'
  next : s.next ≤ s'.next
  fin : s'.fin = s.fin
  cur : ∀ a' b, s.cur a' b ≠ none → s'.cur a' b ≠ none
  old : ∀ b p, p.id < s.next → ¬ X p.id → (PhiAt s'.G b p ↔ PhiAt s.G b p)
  fresh : ∀ b p, PhiAt s'.G b p → s.next ≤ p.id → opn' p.id → p.inc = []
  todo : ∃ T, s'.todo = s.todo ++ T ∧ (∀ y, opn' y ↔ opn y ∨ ∃ e ∈ T, e.2.2 = y) ∧ (T.map (fun e => e.2.2)).Nodup ∧
    ∀ e ∈ T, e.1 ∉ s.fin ∧ e.2.1 = a ∧ s.cur a e.1 = none ∧ s'.cur a e.1 ≠ none ∧ s.next ≤ e.2.2 ∧ e.2.2 < s'.next ∧ (e.2.2, a, e.1) ∈ Φ'

theorem Ext.trans {a : Nat} {X : Nat → Prop} (h : Ext a X Φ E opn s Φ' E' opn' s') (h' : Ext a X Φ' E' opn' s' Φ'' E'' opn'' s'') (hX : ∀ x, X x → x < s.next) :
    Ext a X Φ E opn s Φ'' E'' opn'' s'' := by
  obtain ⟨T, t1, t2, t3, t4⟩ := h.todo
  obtain ⟨T', t1', t2', t3', t4'⟩ := h'.todo
  refine ⟨fun e he => h'.subΦ e (h.subΦ e he), fun e he => h'.subE e (h.subE e he), h.next.trans h'.next, h'.fin.trans h.fin,
    fun a' b hc => h'.cur a' b (h.cur a' b hc), fun b p hp hx => (h'.old b p (lt_of_lt_of_le hp h.next) hx).trans (h.old b p hp hx), ?_, T ++ T', ?_, ?_, ?_, ?_⟩
  · intro b p hp hn ho
    by_cases hlt : p.id < s'.next
    · have hpx : ¬ X p.id := fun hx => absurd (hX _ hx) (by omega)
      have hp' := (h'.old b p hlt hpx).mp hp
      refine h.fresh b p hp' hn ?_
      rcases (t2' _).mp ho with ho | ⟨e, he, e1⟩
      · exact ho
      · have := (t4' e he).2.2.2.2.1; omega
    · exact h'.fresh b p hp (by omega) ho
  · rw [t1', t1, List.append_assoc]
  · intro y
    rw [t2', t2]
    simp only [List.mem_append]
    constructor
    · rintro ((h | ⟨e, he, h⟩) | ⟨e, he, h⟩)
      · exact .inl h
      · exact .inr ⟨e, .inl he, h⟩
      · exact .inr ⟨e, .inr he, h⟩
    · rintro (h | ⟨e, he | he, h⟩)
      · exact .inl (.inl h)
      · exact .inl (.inr ⟨e, he, h⟩)
      · exact .inr ⟨e, he, h⟩
  · rw [List.map_append, List.nodup_append]
    refine ⟨t3, t3', ?_⟩
    rintro x hx y hy rfl
    obtain ⟨e, he, e1⟩ := List.mem_map.mp hx
    obtain ⟨e', he', e1'⟩ := List.mem_map.mp hy
    have h1 := (t4 e he).2.2.2.2.2.1
    have h2 := (t4' e' he').2.2.2.2.1
    omega
  · intro e he
    rcases List.mem_append.mp he with he | he
    · obtain ⟨h1, h2, h3, h4, h5, h6, h7⟩ := t4 e he
      exact ⟨h1, h2, h3, h'.cur _ _ h4, h5, lt_of_lt_of_le h6 h'.next, h'.subΦ _ h7⟩
    · obtain ⟨h1, h2, h3, h4, h5, h6, h7⟩ := t4' e he
      refine ⟨h.fin ▸ h1, h2, ?_, h4, h.next.trans h5, h6, h7⟩
      by_contra hc
      exact h.cur _ _ hc h3

theorem Ext.refl {a : Nat} {X : Nat → Prop} (I : MInv kind F vars pos Φ E opn s) : Ext a X Φ E opn s Φ E opn s :=
  ⟨fun _ h => h, fun _ h => h, Nat.le_refl _, rfl, fun _ _ h => h, fun _ _ _ _ => Iff.rfl, fun b p hp hn _ => absurd (I.phiLt hp) (by omega),
    [], by simp, by simp, by simp, by simp⟩

/-- the content of a slot does not change where nothing is stored -/
theorem Val.upto {a b : Nat} {B : Block Op C} {o : Opd C} {k : Nat} (hB : F.blk b = some B) (h : Val kind F Φ E a b k o) :
    ∀ n, k ≤ n → n ≤ B.body.length → (∀ j i, k ≤ j → j < n → B.body[j]? = some i → ¬ Writes kind i a) → Val kind F Φ E a b n o := by
  intro n
  induction n with
  | zero => intro hk _ _; obtain rfl : k = 0 := by omega
            exact h
  | succ n ih =>
    intro hk hn hw
    rcases Nat.lt_or_ge n k with hlt | hge
    · obtain rfl : k = n + 1 := by omega
      exact h
    · refine .keep (ih hge (by omega) (fun j i h1 h2 h3 => hw j i h1 (by omega) h3)) hB (List.getElem?_eq_getElem (by omega)) ?_
      exact hw n _ hge (by omega) (List.getElem?_eq_getElem (by omega))

section
variable (P : Proper F) (hl : AllLive F) (V : Private kind slot F vars)
include P V

/-- outside the entry block only stores write to a slot -/
theorem MInv.noWrite (I : MInv kind F vars pos Φ E opn s) {a b : Nat} {B : Block Op C} (ha : a ∈ vars) (hB : F.blk b = some B) (hne : b ≠ F.entry) (hc : s.cur a b = none) :
    ∀ j i, 0 ≤ j → j < pos b → B.body[j]? = some i → ¬ Writes kind i a := by
  intro j i _ hj hi hw
  rcases hw with hw | hw
  · exact hne (P.home (hw ▸ Inst.defIn hB hi) (V.defIn ha))
  · exact I.undef a b B j i ha hc hB hj hi hw

theorem MInv.entryVal (I : MInv kind F vars pos Φ E opn s) {a : Nat} {B : Block Op C} (ha : a ∈ vars) (hB : F.blk F.entry = some B) (hc : s.cur a F.entry = none) {j : Nat} {i : Inst Op C}
    (hi : B.body[j]? = some i) (hid : i.id = a) (hj : j < pos F.entry) (c : C) : Val kind F Φ E a F.entry (pos F.entry) (.cst c) := by
  refine Val.upto hB (.alloca hB hi hid) _ hj (I.le _ _ hB) ?_
  intro j' i' h1 h2 hi' hw
  rcases hw with hw | hw
  · have := P.index hB hi hi' (hw.trans hid.symm); omega
  · exact I.undef a _ B j' i' ha hc hB h2 hi' hw

theorem MInv.setDef (I : MInv kind F vars pos Φ E opn s) {a b : Nat} {o : Opd C} (h : Val kind F Φ E a b (pos b) o) : MInv kind F vars pos Φ E opn (s.defVar a b o) := by
  refine ⟨I.cert, I.cln, ?_, ?_, I.fin, I.le, I.old, I.new⟩
  · intro a' b' o' ha' hc
    simp only [MS.defVar] at hc
    split at hc
    · rename_i e
      obtain ⟨rfl, rfl⟩ := e
      cases hc
      exact h
    · exact I.dfd a' b' o' ha' hc
  · intro a' b' B j i ha' hc
    simp only [MS.defVar] at hc
    split at hc
    · cases hc
    · exact I.undef a' b' B j i ha' hc

include hl

theorem addOps_ok {g : CFG} (rec : MS Op C → Nat → Nat → Option (Opd C × MS Op C)) {a b x : Nat} (hb : ∃ B, F.blk b = some B)
    (hrec : ∀ s Φ E opn q Q o s', MInv kind F vars pos Φ E opn s → F.blk q = some Q → pos q = Q.body.length → rec s a q = some (o, s') →
      ∃ Φ' E' opn', MInv kind F vars pos Φ' E' opn' s' ∧ Ext a (fun _ => False) Φ E opn s Φ' E' opn' s' ∧ Val kind F Φ' E' a q (pos q) o) :
    ∀ (qs : List Nat) (s : MS Op C) (Φ : List (Nat × Nat × Nat)) (E : List (Nat × Opd C)) (opn : Nat → Prop) (s' : MS Op C), MInv kind F vars pos Φ E opn s → (x, a, b) ∈ Φ → opn x → qs.Nodup →
      (∀ q ∈ qs, Edge F q b ∧ ∀ Q, F.blk q = some Q → pos q = Q.body.length) →
      (∀ p, PhiAt s.G b p → p.id = x → ∀ q ∈ qs, q ∉ p.inc.map Prod.fst) →
      addOps rec a b x qs s = some s' →
      ∃ Φ' E' opn', MInv kind F vars pos Φ' E' opn' s' ∧ Ext a (fun y => y = x) Φ E opn s Φ' E' opn' s' ∧
        ∀ p', PhiAt s'.G b p' → p'.id = x → ∃ p, PhiAt s.G b p ∧ p.id = x ∧ p'.inc.map Prod.fst = p.inc.map Prod.fst ++ qs := by
  intro qs
  induction qs with
  | nil =>
    intro s Φ E opn s' I _ _ _ _ _ h
    simp only [addOps, Option.some.injEq] at h
    subst h
    exact ⟨Φ, E, opn, I, .refl I, fun p hp e => ⟨p, hp, e, by simp⟩⟩
  | cons q qs ih =>
    intro s Φ E opn s' I hx hop hn hq hk h
    simp only [addOps] at h
    split at h
    · cases h
    rename_i o s1 h1
    obtain ⟨⟨Q, hQ, hqe⟩, hpos⟩ := hq q (by simp)
    obtain ⟨Φ1, E1, opn1, I1, X1, hv⟩ := hrec s Φ E opn q Q o s1 I hQ (hpos Q hQ) h1
    obtain ⟨hqn, hn'⟩ := List.nodup_cons.mp hn
    have hx1 := X1.subΦ _ hx
    have hxlt : x < s.next := I.new _ hx
    have hop1 : opn1 x := by
      obtain ⟨T, _, t2, _⟩ := X1.todo
      exact (t2 x).mpr (.inl hop)
    have hsame : ∀ p, p.id = x → (PhiAt s1.G b p ↔ PhiAt s.G b p) := fun p e => X1.old b p (e ▸ hxlt) (fun h => h)
    have c2 : Cert kind F vars Φ1 E1 (s1.G.addInc b x q o) opn1 := by
      refine I1.cert.addInc hx1 hop1 ⟨Q, hQ, hqe⟩ (fun Q' hQ' => ?_) ?_
      · rw [hQ] at hQ'; cases hQ'
        rw [← hpos Q hQ]; exact hv
      · intro B p hB hp e
        exact hk p ((hsame p e).mp ⟨B, hB, hp⟩) e q (by simp)
    have I2 : MInv kind F vars pos Φ1 E1 opn1 { s1 with G := s1.G.addInc b x q o } := ⟨c2, I1.cln, I1.dfd, I1.undef, I1.fin, I1.le, I1.old, I1.new⟩
    have X2 : Ext a (fun y => y = x) Φ1 E1 opn1 s1 Φ1 E1 opn1 { s1 with G := s1.G.addInc b x q o } := by
      refine ⟨fun _ h => h, fun _ h => h, Nat.le_refl _, rfl, fun _ _ h => h, ?_, ?_, [], by simp, by simp, by simp, by simp⟩
      · intro d p _ hne
        rw [phiAt_addInc]
        constructor
        · rintro ⟨p0, h0, rfl⟩
          by_cases e : d = b ∧ p0.id = x
          · rw [if_pos e] at hne; exact absurd e.2 hne
          · rw [if_neg e]; exact h0
        · intro h0
          exact ⟨p, h0, by rw [if_neg]; exact fun e => hne e.2⟩
      · intro d p hp hn _
        exact absurd (I2.phiLt hp) (by simp only; omega)
    have X1' : Ext a (fun y => y = x) Φ E opn s Φ1 E1 opn1 s1 :=
      ⟨X1.subΦ, X1.subE, X1.next, X1.fin, X1.cur, fun d p hp _ => X1.old d p hp (fun h => h), X1.fresh, X1.todo⟩
    have hXl : ∀ y, y = x → y < s.next := fun y e => e ▸ hxlt
    obtain ⟨Φ3, E3, opn3, I3, X3, hk3⟩ := ih { s1 with G := s1.G.addInc b x q o } Φ1 E1 opn1 s' I2 hx1 hop1 hn' (fun q' hq' => hq q' (List.mem_cons_of_mem _ hq'))
      (by
        intro p' hp' e q' hq'
        obtain ⟨p, hp, rfl⟩ := phiAt_addInc.mp hp'
        have hpid : p.id = x := by
          split at e
          · rename_i h; exact h.2
          · exact e
        rw [if_pos ⟨rfl, hpid⟩]
        simp only [Phi.addIncoming, List.map_append, List.map_cons, List.map_nil, List.mem_append, List.mem_singleton, not_or]
        exact ⟨hk p ((hsame p hpid).mp hp) hpid q' (List.mem_cons_of_mem _ hq'), fun e => hqn (e ▸ hq')⟩) h
    refine ⟨Φ3, E3, opn3, I3, (X1'.trans X2 hXl).trans X3 hXl, ?_⟩
    intro p' hp' e
    obtain ⟨p2, hp2, e2, k2⟩ := hk3 p' hp' e
    obtain ⟨p, hp, rfl⟩ := phiAt_addInc.mp hp2
    have hpid : p.id = x := by
      split at e2
      · rename_i h; exact h.2
      · exact e2
    rw [if_pos ⟨rfl, hpid⟩] at k2
    refine ⟨p, (hsame p hpid).mp hp, hpid, ?_⟩
    rw [k2]
    simp [Phi.addIncoming]

/-- what completing the phi `x` for variable `a` may change, seen from before phi `N` was made -/
structure ExtP (a N x : Nat) (Φ : List (Nat × Nat × Nat)) (E : List (Nat × Opd C)) (opn : Nat → Prop) (s : MS Op C)
    (Φ' : List (Nat × Nat × Nat)) (E' : List (Nat × Opd C)) (opn' : Nat → Prop) (s' : MS Op C) : Prop where
  subΦ : ∀ e ∈ Φ, e ∈ Φ'
  subE : ∀ e ∈ E, e ∈ E'
  next : s.next ≤ s'.next
  fin : s'.fin = s.fin
  cur : ∀ a' b, s.cur a' b ≠ none → s'.cur a' b ≠ none
  old : ∀ b p, p.id < N → (PhiAt s'.G b p ↔ PhiAt s.G b p)
  emp : ∀ b p, PhiAt s'.G b p → N ≤ p.id → opn' p.id → p.inc = []
  todo : ∃ T, s'.todo = s.todo ++ T ∧ (∀ y, opn' y ↔ (opn y ∧ y ≠ x) ∨ ∃ e ∈ T, e.2.2 = y) ∧ (T.map (fun e => e.2.2)).Nodup ∧
    ∀ e ∈ T, e.1 ∉ s.fin ∧ e.2.1 = a ∧ s.cur a e.1 = none ∧ s'.cur a e.1 ≠ none ∧ s.next ≤ e.2.2 ∧ e.2.2 < s'.next ∧ (e.2.2, a, e.1) ∈ Φ'

theorem addPhiOperands_ok [DecidableEq C] {ord : List Nat → List Nat} {u : Nat → C} (ho : ∀ l y, y ∈ ord l → y ∈ l)
    (rec : MS Op C → Nat → Nat → Option (Opd C × MS Op C)) {a b x : Nat} (hb : ∃ B, F.blk b = some B)
    (hrec : ∀ s Φ E opn q Q o s', MInv kind F vars pos Φ E opn s → F.blk q = some Q → pos q = Q.body.length → rec s a q = some (o, s') →
      ∃ Φ' E' opn', MInv kind F vars pos Φ' E' opn' s' ∧ Ext a (fun _ => False) Φ E opn s Φ' E' opn' s' ∧ Val kind F Φ' E' a q (pos q) o)
    {qs : List Nat} {s : MS Op C} {o : Opd C} {s' : MS Op C} {N : Nat} (I : MInv kind F vars pos Φ E opn s) (hx : (x, a, b) ∈ Φ) (hop : opn x) (hn : qs.Nodup)
    (hqs : ∀ q, q ∈ qs ↔ Edge F q b) (hq : ∀ q Q, Edge F q b → F.blk q = some Q → pos q = Q.body.length) (hN : N ≤ x)
    (low : ∀ b p y, PhiAt s.G b p → p.id < N → Opd.inst y ∈ p.ops → y < N) (emp : ∀ b p, PhiAt s.G b p → N ≤ p.id → opn p.id → p.inc = [])
    (h : addPhiOperands ord u rec qs a b x s = some (o, s')) :
    ∃ Φ' E' opn', MInv kind F vars pos Φ' E' opn' s' ∧ ExtP a N x Φ E opn s Φ' E' opn' s' ∧ Rep E' (.inst x) o := by
  unfold addPhiOperands at h
  obtain ⟨s1, h1, h⟩ := Option.bind_eq_some_iff.mp h
  obtain ⟨⟨o1, G2⟩, h2, e⟩ := Option.map_eq_some_iff.mp h
  simp only [Prod.mk.injEq] at e
  obtain ⟨rfl, rfl⟩ := e
  have hxlt : x < s.next := I.new _ hx
  obtain ⟨Φ1, E1, opn1, I1, X1, hk⟩ := addOps_ok (g := ⟨fun _ => [], fun _ => []⟩) P hl V rec hb hrec qs s Φ E opn s1 I hx hop hn
    (fun q hq' => ⟨(hqs q).mp hq', fun Q hQ => hq q Q ((hqs q).mp hq') hQ⟩)
    (fun p hp e => by
      have := emp b p hp (by omega) (e ▸ hop)
      simp [this]) h1
  obtain ⟨T, t1, t2, t3, t4⟩ := X1.todo
  -- `x` is complete
  have c2 := I1.cert.close (x := x) (by
    intro b' B p hB hp e q he
    have hb' : b' = b := I1.cert.homeUnique P (by rw [← e]; exact I1.cert.phiHome hB hp) (.inr ⟨a, X1.subΦ _ hx⟩)
    subst hb'
    obtain ⟨p0, _, _, k⟩ := hk p ⟨B, hB, hp⟩ e
    have : q ∈ p.inc.map Prod.fst := by rw [k]; exact List.mem_append.mpr (.inr ((hqs q).mpr he))
    obtain ⟨⟨q', v⟩, hm, e'⟩ := List.mem_map.mp this
    simp only at e'
    subst e'
    exact ⟨v, hm⟩)
  have hold : ∀ d p, p.id < N → (PhiAt s1.G d p ↔ PhiAt s.G d p) := fun d p hp => X1.old d p (by omega) (by omega)
  obtain ⟨E', hE', c', hc', hr, st⟩ := tryRemove_ok P hl V ho N _ _ _ x o1 G2 c2 I1.cln
    (fun d p y hp hlt hm => low d p y ((hold d p hlt).mp hp) hlt hm)
    (fun d p hp hge ho' => by
      by_cases hlt : p.id < s.next
      · have hp0 := (X1.old d p hlt ho'.2).mp hp
        refine emp d p hp0 hge ?_
        rcases (t2 _).mp ho'.1 with h | ⟨e, he, h⟩
        · exact h
        · have := (t4 e he).2.2.2.2.1; omega
      · exact X1.fresh d p hp (by omega) ho'.1)
    hN (fun h => h.2 rfl) h2
  refine ⟨Φ1, E', _, ⟨c', hc', fun a' b' o' ha' hc => (I1.dfd a' b' o' ha' hc).mono (fun _ h => h) hE', I1.undef, I1.fin, I1.le, I1.old, I1.new⟩, ?_, hr⟩
  refine ⟨X1.subΦ, fun e he => hE' e (X1.subE e he), X1.next, X1.fin, X1.cur, fun d p hp => (st.old d p hp).trans (hold d p hp), ?_, T, t1, ?_, t3, t4⟩
  · intro d p' hp' hge ho'
    obtain ⟨p, hp, e, k⟩ := st.bwd d p' hp'
    refine inc_nil_of_keys k ?_
    rw [← e] at hge ho'
    by_cases hlt : p.id < s.next
    · have hp0 := (X1.old d p hlt ho'.2).mp hp
      refine emp d p hp0 hge ?_
      rcases (t2 _).mp ho'.1 with h | ⟨e, he, h⟩
      · exact h
      · have := (t4 e he).2.2.2.2.1; omega
    · exact X1.fresh d p hp (by omega) ho'.1
  · intro y
    rw [t2]
    constructor
    · rintro ⟨h | h, hne⟩
      · exact .inl ⟨h, hne⟩
      · exact .inr h
    · rintro (⟨h, hne⟩ | ⟨e, he, h⟩)
      · exact ⟨.inl h, hne⟩
      · refine ⟨.inr ⟨e, he, h⟩, fun e' => ?_⟩
        have := (t4 e he).2.2.2.2.1
        omega

theorem useVar_ok [DecidableEq C] {ord : List Nat → List Nat} {u : Nat → C} {g : CFG} (ho : ∀ l y, y ∈ ord l → y ∈ l)
    (hg : ∀ b q, q ∈ g.pred b ↔ Edge F q b) (hgn : ∀ b, (g.pred b).Nodup) {a : Nat} (ha : a ∈ vars) :
    ∀ (n : Nat) (s : MS Op C) (Φ : List (Nat × Nat × Nat)) (E : List (Nat × Opd C)) (opn : Nat → Prop) (b : Nat) (B : Block Op C) (o : Opd C) (s' : MS Op C),
      MInv kind F vars pos Φ E opn s → F.blk b = some B → (b = F.entry → ∃ j i, B.body[j]? = some i ∧ i.id = a ∧ j < pos b) →
      useVar ord u g n s a b = some (o, s') →
      ∃ Φ' E' opn', MInv kind F vars pos Φ' E' opn' s' ∧ Ext a (fun _ => False) Φ E opn s Φ' E' opn' s' ∧ Val kind F Φ' E' a b (pos b) o := by
  intro n
  induction n with
  | zero => intro s Φ E opn b B o s' _ _ _ h; cases h
  | succ n ih =>
    intro s Φ E opn b B o s' I hB hent h
    have hrec : ∀ s Φ E opn q Q o s', MInv kind F vars pos Φ E opn s → F.blk q = some Q → pos q = Q.body.length → useVar ord u g n s a q = some (o, s') →
        ∃ Φ' E' opn', MInv kind F vars pos Φ' E' opn' s' ∧ Ext a (fun _ => False) Φ E opn s Φ' E' opn' s' ∧ Val kind F Φ' E' a q (pos q) o := by
      intro s Φ E opn q Q o s' I hQ hpos h
      refine ih s Φ E opn q Q o s' I hQ ?_ h
      rintro rfl
      obtain ⟨B0, j, i, hB0, hi, hid, _⟩ := V.lead a ha
      rw [hQ] at hB0; cases hB0
      exact ⟨j, i, hi, hid, by rw [hpos]; exact (List.getElem?_eq_some_iff.mp hi).1⟩
    simp only [useVar] at h
    cases hc : s.cur a b with
    | some v =>
      simp only [hc, Option.some.injEq, Prod.mk.injEq] at h
      obtain ⟨rfl, rfl⟩ := h
      exact ⟨Φ, E, opn, I, .refl I, I.dfd a b v ha hc⟩
    | none =>
      simp only [hc] at h
      by_cases hbe : b = s.G.entry
      · rw [if_pos hbe] at h
        simp only [Option.some.injEq, Prod.mk.injEq] at h
        obtain ⟨rfl, rfl⟩ := h
        rw [I.cert.entry] at hbe
        obtain ⟨j, i, hi, hid, hj⟩ := hent hbe
        subst hbe
        exact ⟨Φ, E, opn, I, .refl I, I.entryVal P V ha hB hc hi hid hj _⟩
      rw [if_neg hbe] at h
      have hne : b ≠ F.entry := I.cert.entry ▸ hbe
      have nw := I.noWrite P V ha hB hne hc
      -- a new phi
      have hfreshH : ∀ d, ¬ Home F Φ s.next d := fun d hd => absurd (I.homeLt hd) (by omega)
      have hGB : ∃ B, s.G.blk b = some B := by
        obtain ⟨B', hB', _⟩ := I.cert.some_ b B hB
        exact ⟨B', hB'⟩
      have c1 := I.cert.addPhi (x := s.next) (a := a) hne hB ha hfreshH
      have hsub : ∀ e ∈ Φ, e ∈ (s.next, a, b) :: Φ := fun e h => List.mem_cons_of_mem _ h
      have hvphi : Val kind F ((s.next, a, b) :: Φ) E a b (pos b) (.inst s.next) :=
        Val.upto hB (.phi (by simp)) _ (Nat.zero_le _) (I.le b B hB) nw
      have hnewlt : ∀ e ∈ (s.next, a, b) :: Φ, e.1 < s.next + 1 := by
        intro e he
        rcases List.mem_cons.mp he with rfl | he
        · simp
        · have := I.new e he; omega
      have mkI : ∀ todo, MInv kind F vars pos ((s.next, a, b) :: Φ) E (fun y => opn y ∨ y = s.next)
          (MS.defVar { s with G := s.G.addPhi b s.next, next := s.next + 1, todo := todo } a b (.inst s.next)) := by
        intro todo
        have I0 : MInv kind F vars pos ((s.next, a, b) :: Φ) E (fun y => opn y ∨ y = s.next)
            ({ s with G := s.G.addPhi b s.next, next := s.next + 1, todo := todo }) :=
          ⟨c1, I.cln, fun a' b' o' ha' hc' => (I.dfd a' b' o' ha' hc').mono hsub (fun _ h => h), I.undef, I.fin, I.le, fun x d hd => Nat.lt_succ_of_lt (I.old x d hd), hnewlt⟩
        exact I0.setDef P V hvphi
      have hcurset : ∀ (t : MS Op C) (v : Opd C) a' b', t.cur a' b' ≠ none → (t.defVar a b v).cur a' b' ≠ none := by
        intro t v a' b' h
        simp only [MS.defVar]
        split
        · simp
        · exact h
      by_cases hfin : b ∉ s.fin
      · rw [if_pos hfin] at h
        simp only [Option.some.injEq, Prod.mk.injEq] at h
        obtain ⟨rfl, rfl⟩ := h
        refine ⟨_, E, _, mkI _, ?_, hvphi⟩
        refine ⟨hsub, fun _ h => h, Nat.le_succ _, rfl, fun a' b' hcc => hcurset _ _ a' b' hcc, ?_, ?_, [(b, a, s.next)], rfl, ?_, by simp, ?_⟩
        · intro d p hp _
          show PhiAt (s.G.addPhi b s.next) d p ↔ _
          rw [phiAt_addPhi]
          constructor
          · rintro (h | ⟨_, _, rfl⟩)
            · exact h
            · simp at hp
          · exact .inl
        · intro d p hp hge _
          have hp' : PhiAt (s.G.addPhi b s.next) d p := hp
          rw [phiAt_addPhi] at hp'
          rcases hp' with h | ⟨_, _, rfl⟩
          · exact absurd (I.phiLt h) (by omega)
          · rfl
        · intro y
          simp only [List.mem_singleton, exists_eq_left]
          exact or_congr_right eq_comm
        · intro e he
          rw [List.mem_singleton] at he
          subst he
          exact ⟨hfin, rfl, hc, by simp [MS.defVar], Nat.le_refl _, Nat.lt_succ_self _, by simp⟩
      · rw [if_neg hfin] at h
        rw [not_not] at hfin
        have hpos := I.fin b hfin
        split at h
        · -- one predecessor
          rename_i q hqs
          obtain ⟨⟨o1, s1⟩, h1, e⟩ := Option.map_eq_some_iff.mp h
          simp only [Prod.mk.injEq] at e
          obtain ⟨rfl, rfl⟩ := e
          have hqe : ∀ p, Edge F p b ↔ p = q := fun p => by rw [← hg, hqs, List.mem_singleton]
          obtain ⟨Q, hQ, ht⟩ := (hqe q).mpr rfl
          obtain ⟨Φ1, E1, opn1, I1, X1, hv⟩ := hrec s Φ E opn q Q o1 s1 I hQ (hpos q Q ⟨Q, hQ, ht⟩ hQ) h1
          rw [hpos q Q ⟨Q, hQ, ht⟩ hQ] at hv
          have hvb : Val kind F Φ1 E1 a b (pos b) o1 := Val.upto hB (.single hqe hne hQ hv) _ (Nat.zero_le _) (I.le b B hB) nw
          refine ⟨Φ1, E1, opn1, I1.setDef P V hvb, ?_, hvb⟩
          obtain ⟨T, t1, t2, t3, t4⟩ := X1.todo
          refine ⟨X1.subΦ, X1.subE, X1.next, X1.fin, fun a' b' hcc => hcurset s1 o1 a' b' (X1.cur a' b' hcc), X1.old, X1.fresh, T, t1, t2, t3, fun e he => ?_⟩
          obtain ⟨k1, k2, k3, k4, k5, k6, k7⟩ := t4 e he
          exact ⟨k1, k2, k3, hcurset s1 o1 _ _ k4, k5, k6, k7⟩
        · obtain ⟨⟨o1, s1⟩, h1, e⟩ := Option.map_eq_some_iff.mp h
          simp only [Prod.mk.injEq] at e
          obtain ⟨rfl, rfl⟩ := e
          have I1 := mkI s.todo
          have hopn1 : ∀ y, opn y → y < s.next := fun y hy => I.opnLt hy
          obtain ⟨Φ2, E2, opn2, I2, X2, hr⟩ := addPhiOperands_ok (N := s.next) P hl V ho (useVar ord u g n) ⟨B, hB⟩ hrec I1 (x := s.next) (by simp) (.inr rfl) (hgn b)
            (hg b) hpos (Nat.le_refl _)
            (by
              intro d p y hp hlt hm
              rcases phiAt_addPhi.mp hp with hp | ⟨_, _, rfl⟩
              · obtain ⟨d', hd'⟩ := I.cert.opsHome P hl hp hm
                exact I.homeLt hd'
              · simp at hlt)
            (by
              intro d p hp hge _
              rcases phiAt_addPhi.mp hp with hp | ⟨_, _, rfl⟩
              · exact absurd (I.phiLt hp) (by omega)
              · rfl) h1
          have hvb : Val kind F Φ2 E2 a b (pos b) o1 := (hvphi.mono X2.subΦ X2.subE).rep hr
          refine ⟨Φ2, E2, opn2, I2.setDef P V hvb, ?_, hvb⟩
          obtain ⟨T, t1, t2, t3, t4⟩ := X2.todo
          have hnx : s.next + 1 ≤ s1.next := X2.next
          refine ⟨fun e he => X2.subΦ e (hsub e he), X2.subE, by show s.next ≤ s1.next; omega, X2.fin, fun a' b' hcc => hcurset s1 o1 a' b' (X2.cur a' b' (hcurset _ _ a' b' hcc)), ?_, ?_, T, t1, ?_, t3, ?_⟩
          · intro d p hp _
            refine (X2.old d p hp).trans ?_
            refine phiAt_addPhi.trans ⟨?_, .inl⟩
            rintro (h | ⟨_, _, rfl⟩)
            · exact h
            · simp at hp
          · exact fun d p hp hge ho' => X2.emp d p hp hge ho'
          · intro y
            rw [t2]
            refine or_congr_left ?_
            constructor
            · rintro ⟨h | h, hne'⟩
              · exact h
              · exact absurd h hne'
            · intro h
              exact ⟨.inl h, by have := hopn1 y h; omega⟩
          · intro e he
            obtain ⟨k1, k2, k3, k4, k5, k6, k7⟩ := t4 e he
            refine ⟨k1, k2, ?_, hcurset s1 o1 _ _ k4, Nat.le_of_succ_le k5, k6, k7⟩
            by_contra hcc
            exact hcurset _ (.inst s.next) _ _ hcc k3

end
end
end Cmmc.SSA
