import Verif.Fe.Rel
/-!
# Source states and target states
-/
namespace Cmmc.Fe
open Cmmc

/-- a variable in scope, as the compiler sees it; `cv` is its constant binding -/
structure SE where
  name : String
  o : Opd
  ty : Ty
  sg : Bool
  cst : Bool
  cv : Option (Wd × Nat)

def SE.q (e : SE) : QVal := ⟨e.o, .lv e.ty e.sg e.cst⟩

/-- the builder state describes the scopes `Γ` -/
structure Stat (consts : String → Option (Wd × Nat)) (Γ : List (List SE)) (c : Ctx) : Prop where
  scopes : c.scopes = Γ.map (fun sc => sc.map SE.name)
  vars : ∀ x, c.vars x = (Γ.flatten.filter (fun e => e.name == x)).map SE.q
  nodup : ∀ sc ∈ Γ, (sc.map SE.name).Nodup
  ok : ∀ e ∈ Γ.flatten, e.ty.ok = true
  opd : ∀ e ∈ Γ.flatten, (∃ k, e.o = .inst (2 * k) ∧ c.slots[k]? = some e.ty.cnt) ∨ (∃ g, e.o = .cst (.glob g))
  inj : ∀ e ∈ Γ.flatten, ∀ e' ∈ Γ.flatten, e.o = e'.o → e = e'
  cv : ∀ e ∈ Γ.flatten, c.cb.lookup e.o = e.cv
  cvt : ∀ e ∈ Γ.flatten, ∀ p, e.cv = some p → e.cst = true ∧ e.ty = .int p.1
  cbk : ∀ p ∈ c.cb, (∃ g, p.1 = .cst (.glob g)) ∨ ∃ k, k < c.slots.length ∧ p.1 = .inst (2 * k)
  glob : ∀ e ∈ Γ.flatten, ∀ g, e.o = .cst (.glob g) → (e.cst = false → consts g = none) ∧ (∀ p, e.cv = some p → consts g = some p)

theorem Stat.same {k : String → Option (Wd × Nat)} {Γ : List (List SE)} {c c' : Ctx} (h : Stat k Γ c) (hs : Same c c') : Stat k Γ c' where
  scopes := by rw [hs.scopes, h.scopes]
  vars := by rw [hs.vars]; exact h.vars
  nodup := h.nodup
  ok := h.ok
  opd := by rw [hs.slotsEq]; exact h.opd
  inj := h.inj
  cv := by rw [hs.cb]; exact h.cv
  cvt := h.cvt
  cbk := by rw [hs.cb, hs.slotsEq]; exact h.cbk
  glob := h.glob

/-- the source environment: `ob` tells which object an address operand denotes now -/
def den (Γ : List (List SE)) (ob : Opd → Obj) : SEnv := Γ.map (fun sc => sc.map (fun e => (e.name, ⟨ob e.o, e.ty, e.sg, e.cst⟩)))

theorem den_find (Γ : List (List SE)) (ob : Opd → Obj) (x : String) :
    (den Γ ob).find x = ((Γ.flatten.filter (fun e => e.name == x)).head?).map (fun e => ⟨ob e.o, e.ty, e.sg, e.cst⟩) := by
  unfold SEnv.find den
  have : (Γ.map (fun sc => sc.map (fun e => (e.name, (⟨ob e.o, e.ty, e.sg, e.cst⟩ : Ent))))).flatten =
      Γ.flatten.map (fun e => (e.name, (⟨ob e.o, e.ty, e.sg, e.cst⟩ : Ent))) := by
    rw [List.map_flatten]
  rw [this, List.find?_map, List.head?_filter]
  rw [Option.map_map]
  rfl

section
variable {X : Ext} (K : Cfg X)

/-- the source state and the target state agree -/
structure Dyn (Γ : List (List SE)) (ob : Opd → Obj) (S : SSt X) (env : Env) (m : Mem X) : Prop where
  slot : ∀ k z, K.Fc.slots[k]? = some z → env (2 * k) = some (.ptr (.loc k) 0) ∧ m.size k = z
  obl : ∀ e ∈ Γ.flatten, ∀ i, e.o = .inst i → ∃ l, ob e.o = .loc l ∧ l < S.next
  obg : ∀ e ∈ Γ.flatten, ∀ g, e.o = .cst (.glob g) → ob e.o = .glob g
  inj : ∀ e ∈ Γ.flatten, ∀ e' ∈ Γ.flatten, ob e.o = ob e'.o → e.o = e'.o
  mem : ∀ e ∈ Γ.flatten, ∀ k l, e.o = .inst (2 * k) → ob e.o = .loc l → ∀ i v, S.mem l i = some v →
    IT.has ⟨e.ty.base, e.sg⟩ v = true ∧ m.mem k i = some (raw e.ty.base v)
  cv : ∀ e ∈ Γ.flatten, ∀ l p v, e.cv = some p → ob e.o = .loc l → S.mem l 0 = some v → raw p.1 v = p.2
  w : m.w = S.w
  inv : K.inv S.w

variable {K}

theorem Dyn.agree {Γ : List (List SE)} {ob : Opd → Obj} {S : SSt X} {env env' : Env} {m : Mem X} {nv : Nat} (h : Dyn K Γ ob S env m)
    (ha : Agree nv env env') : Dyn K Γ ob S env' m where
  slot k z hk := by rw [ha _ (by omega)]; exact h.slot k z hk
  obl := h.obl
  obg := h.obg
  inj := h.inj
  mem := h.mem
  cv := h.cv
  w := h.w
  inv := h.inv

/-- fewer variables, the same objects -/
theorem Dyn.sub {Γ Γ' : List (List SE)} {ob ob' : Opd → Obj} {S : SSt X} {env : Env} {m : Mem X} (h : Dyn K Γ' ob' S env m)
    (hs : ∀ e ∈ Γ.flatten, e ∈ Γ'.flatten) (ho : ∀ e ∈ Γ.flatten, ob' e.o = ob e.o) : Dyn K Γ ob S env m where
  slot := h.slot
  obl e he i hi := by rw [← ho e he]; exact h.obl e (hs e he) i hi
  obg e he g hg := by rw [← ho e he]; exact h.obg e (hs e he) g hg
  inj e he e' he' heq := by rw [← ho e he, ← ho e' he'] at heq; exact h.inj e (hs e he) e' (hs e' he') heq
  mem e he k l hk hl := by rw [← ho e he] at hl; exact h.mem e (hs e he) k l hk hl
  cv e he l p v hp hl := by rw [← ho e he] at hl; exact h.cv e (hs e he) l p v hp hl
  w := h.w
  inv := h.inv

/-- the target object behind an address operand -/
def tob : Opd → Obj
  | .inst i => .loc (i / 2)
  | .cst (.glob g) => .glob g
  | _ => .glob ""

/-- the operand is the address of the part of variable `e` at `off`, of type `ty` -/
structure LRel (Γ : List (List SE)) (nv : Nat) (env : Env) (o : Opd) (e : SE) (off : Int) (ty : Ty) : Prop where
  mem : e ∈ Γ.flatten
  base : ty.base = e.ty.base
  ok : ty.ok = true
  lo : 0 ≤ off
  hi : off + ty.cnt ≤ e.ty.cnt
  val : (o = e.o ∧ off = 0 ∧ ty = e.ty) ∨ ∃ j, j < nv ∧ o = .inst (2 * j + 1) ∧ env (2 * j + 1) = some (.ptr (tob e.o) off)

inductive QRel (Γ : List (List SE)) (ob : Opd → Obj) (nv : Nat) (env : Env) : QVal → QV → Prop
  | rv {o : Opd} {t : IT} {v : Int} (h : RRel nv env o t v) : QRel Γ ob nv env ⟨o, .rv t⟩ (.rv t v)
  | void {o : Opd} : QRel Γ ob nv env ⟨o, .void⟩ .void
  | lv {o : Opd} {e : SE} {off : Int} {ty : Ty} (h : LRel Γ nv env o e off ty) :
      QRel Γ ob nv env ⟨o, .lv ty e.sg e.cst⟩ (.lv (ob e.o) off ty e.sg e.cst)

theorem LRel.agree {Γ : List (List SE)} {nv nv' : Nat} {env env' : Env} {o : Opd} {e : SE} {off : Int} {ty : Ty} (h : LRel Γ nv env o e off ty)
    (ha : Agree nv env env') (hn : nv ≤ nv') : LRel Γ nv' env' o e off ty := by
  refine ⟨h.mem, h.base, h.ok, h.lo, h.hi, h.val.imp id ?_⟩
  rintro ⟨j, hj, ho, hv⟩
  exact ⟨j, by omega, ho, by rw [ha _ (by omega)]; exact hv⟩

theorem QRel.agree {Γ : List (List SE)} {ob : Opd → Obj} {nv nv' : Nat} {env env' : Env} {q : QVal} {qv : QV} (h : QRel Γ ob nv env q qv)
    (ha : Agree nv env env') (hn : nv ≤ nv') : QRel Γ ob nv' env' q qv := by
  cases h with
  | rv h => exact .rv (h.agree ha hn)
  | void => exact .void
  | lv h => exact .lv (h.agree ha hn)

theorem prefix_get {α : Type} {a b : List α} (h : a <+: b) {k : Nat} {z : α} (hk : a[k]? = some z) : b[k]? = some z := by
  obtain ⟨t, rfl⟩ := h
  obtain ⟨hl, _⟩ := List.getElem?_eq_some_iff.1 hk
  rw [List.getElem?_append_left hl]; exact hk

theorem LRel.eval {Γ : List (List SE)} {ob : Opd → Obj} {S : SSt X} {env : Env} {m : Mem X} {c : Ctx} {nv : Nat} {o : Opd} {e : SE} {off : Int} {ty : Ty}
    (h : LRel Γ nv env o e off ty) (hs : Stat K.consts Γ c) (hd : Dyn K Γ ob S env m) (he : c.slots <+: K.Fc.slots) :
    SSA.eval K.L env o = some (.ptr (tob e.o) off) := by
  rcases h.val with ⟨rfl, rfl, rfl⟩ | ⟨j, _, rfl, hv⟩
  · rcases hs.opd e h.mem with ⟨k, hk, hz⟩ | ⟨g, hg⟩
    · rw [hk]
      have := (hd.slot k _ (prefix_get he hz)).1
      simp only [tob, Nat.mul_div_cancel_left k (show 0 < 2 by decide)]
      exact this
    · rw [hg]; rfl
  · exact hv

/-- reading an integer -/
theorem read_ok {Γ : List (List SE)} {ob : Opd → Obj} {S : SSt X} {env : Env} {m : Mem X} {c : Ctx} {nv : Nat} {o : Opd} {e : SE} {off : Int} {w : Wd}
    (h : LRel Γ nv env o e off (.int w)) (hs : Stat K.consts Γ c) (hd : Dyn K Γ ob S env m) (he : c.slots <+: K.Fc.slots) :
    (∃ v, readObj S (ob e.o) off ⟨w, e.sg⟩ = .ok (⟨w, e.sg⟩, v) S ∧ IT.has ⟨w, e.sg⟩ v = true ∧
      irSem K.tc (.load w.bits) [.ptr (tob e.o) off] m = .ok (.int (raw w v)) m []) ∨ readObj S (ob e.o) off ⟨w, e.sg⟩ = .ub := by
  have hb : w = e.ty.base := h.base
  rcases hs.opd e h.mem with ⟨k, hk, hz⟩ | ⟨g, hg⟩
  · obtain ⟨l, hl, _⟩ := hd.obl e h.mem _ hk
    have htob : tob e.o = .loc k := by rw [hk]; simp [tob]
    rw [hl, htob]
    simp only [readObj]
    rcases hv : S.mem l off with _ | v
    · right; rfl
    · left
      obtain ⟨h1, h2⟩ := hd.mem e h.mem k l hk hl off v hv
      rw [← hb] at h1 h2
      refine ⟨v, rfl, h1, ?_⟩
      have h3 := h.lo
      have h4 : off + 1 ≤ e.ty.cnt := h.hi
      have h5 := (hd.slot k _ (prefix_get he hz)).2
      simp only [irSem, h2]
      rw [if_pos ⟨by omega, raw_lt w v⟩]
  · have hl := hd.obg e h.mem _ hg
    have htob : tob e.o = .glob g := by rw [hg]; rfl
    rw [hl, htob]
    simp only [readObj, irSem, hd.w]
    rcases hv : X.rd S.w g off with _ | n
    · right; rfl
    · left
      refine ⟨conv ⟨w, e.sg⟩ n, rfl, conv_has _ _, ?_⟩
      have : raw w (conv ⟨w, e.sg⟩ n) = raw w n := raw_conv ⟨w, e.sg⟩ n
      rw [this]
      simp only []
      congr 2

/-- writing an integer -/
theorem write_ok {Γ : List (List SE)} {ob : Opd → Obj} {S : SSt X} {env : Env} {m : Mem X} {c : Ctx} {nv : Nat} {o : Opd} {e : SE} {off : Int} {w : Wd}
    {v : Int} (h : LRel Γ nv env o e off (.int w)) (hs : Stat K.consts Γ c) (hd : Dyn K Γ ob S env m) (he : c.slots <+: K.Fc.slots)
    (hc : e.cst = false) (hv : IT.has ⟨w, e.sg⟩ v = true) :
    (∃ S' m', writeObj S (ob e.o) off ⟨w, e.sg⟩ v = .ok () S' ∧ S'.tr = S.tr ∧ Dyn K Γ ob S' env m' ∧
      irSem K.tc (.store w.bits) [.ptr (tob e.o) off, .int (raw w v)] m = .ok .undef m' []) ∨
    writeObj S (ob e.o) off ⟨w, e.sg⟩ v = .ub := by
  have hb : w = e.ty.base := h.base
  have hcv : ∀ p, e.cv = some p → False := fun p hp => by
    have := (hs.cvt e h.mem p hp).1
    rw [hc] at this; cases this
  rcases hs.opd e h.mem with ⟨k, hk, hz⟩ | ⟨g, hg⟩
  · left
    obtain ⟨l, hl, _⟩ := hd.obl e h.mem _ hk
    have htob : tob e.o = .loc k := by rw [hk]; simp [tob]
    rw [hl, htob]
    have h3 := h.lo
    have h4 : off + 1 ≤ e.ty.cnt := h.hi
    have h5 := (hd.slot k _ (prefix_get he hz)).2
    have hin : 0 ≤ off ∧ off < m.size k := by omega
    refine ⟨_, { m with mem := fun k' i => if k' = k ∧ i = off then some (raw w v) else m.mem k' i }, rfl, rfl, ?_, ?_⟩
    · constructor
      · exact hd.slot
      · exact hd.obl
      · exact hd.obg
      · exact hd.inj
      · intro e' he' k' l' hk' hl' i x hx
        dsimp only at hx ⊢
        by_cases hll : l' = l
        · subst hll
          have hoo := hd.inj e' he' e h.mem (by rw [hl', hl])
          have hee := hs.inj e' he' e h.mem hoo
          subst hee
          have hkk : k' = k := by rw [hk] at hk'; simpa using hk'.symm
          subst hkk
          by_cases hi : i = off
          · subst hi
            simp only [true_and, if_true, Option.some.injEq] at hx ⊢
            subst hx
            rw [← hb]; exact ⟨hv, rfl⟩
          · simp only [hi, and_false, if_false] at hx ⊢
            exact hd.mem e' he' k' l' hk' hl' i x hx
        · have hkk : k' ≠ k := by
            intro hkk
            apply hll
            have : e' = e := hs.inj e' he' e h.mem (by rw [hk', hk, hkk])
            subst this
            rw [hl] at hl'; simpa using hl'.symm
          simp only [hll, hkk, false_and, if_false] at hx ⊢
          exact hd.mem e' he' k' l' hk' hl' i x hx
      · intro e' he' l' p x hp hl' hx
        dsimp only at hx
        by_cases hll : l' = l
        · subst hll
          have hoo := hd.inj e' he' e h.mem (by rw [hl', hl])
          have hee := hs.inj e' he' e h.mem hoo
          subst hee
          exact (hcv p hp).elim
        · simp only [hll, false_and, if_false] at hx
          exact hd.cv e' he' l' p x hp hl' hx
      · exact hd.w
      · exact hd.inv
    · simp only [irSem]
      rw [if_pos ⟨hin, raw_lt w v⟩]
  · have hl := hd.obg e h.mem _ hg
    have htob : tob e.o = .glob g := by rw [hg]; rfl
    rw [hl, htob]
    simp only [writeObj, irSem, hd.w]
    rcases hw : X.wr S.w g off (raw w v) with _ | w'
    · right; rfl
    · left
      refine ⟨_, { m with w := w' }, rfl, rfl, ?_, rfl⟩
      exact { hd with w := rfl, inv := K.iwr _ _ _ _ _ hd.inv ((hs.glob e h.mem g hg).1 hc) hw }

/-! ## evaluation results -/

variable (K)

/-- what the target does where the source evaluates to `r`: it reaches the insert point of `c'` in a state that agrees and satisfies `R` -/
def Cfg.Meets {α : Type} (Γ : List (List SE)) (ob : Opd → Obj) (s : PS X) (nv : Nat) (env : Env) (c' : Ctx) (r : Out X α)
    (R : Env → α → Prop) : Prop :=
  match r with
  | .ok a S' => ∃ k pred' env' m', K.Leads k s (K.pt c' pred' env' m' S'.tr) ∧ Dyn K Γ ob S' env' m' ∧ Agree nv env env' ∧ R env' a
  | .ub => True
  | .halt h tr => ∃ n, K.brun n s = .inr (.halt h tr)

variable {K} {Γ : List (List SE)} {ob : Opd → Obj}

theorem Meets.ok {α : Type} {c : Ctx} {S : SSt X} {env : Env} {m : Mem X} {pred : Option Nat} {a : α} {R : Env → α → Prop} (hd : Dyn K Γ ob S env m)
    (hR : R env a) : K.Meets Γ ob (K.pt c pred env m S.tr) c.nv env c (.ok a S) R :=
  ⟨0, pred, env, m, Leads.refl _, hd, Agree.refl _ _, hR⟩

theorem Meets.lead {α : Type} {s s' : PS X} {k nv nv' : Nat} {env env' : Env} {c' : Ctx} {r : Out X α} {R : Env → α → Prop} (hl : K.Leads k s s')
    (ha : Agree nv env env') (hn : nv ≤ nv') (h : K.Meets Γ ob s' nv' env' c' r R) : K.Meets Γ ob s nv env c' r R := by
  cases r with
  | ok a S' =>
    obtain ⟨k', pred', e', m', h1, h2, h3, h4⟩ := h
    exact ⟨k' + k, pred', e', m', Leads.trans hl h1, h2, ha.trans h3 hn, h4⟩
  | ub => trivial
  | halt h tr =>
    obtain ⟨n, hn⟩ := h
    exact ⟨n + k, Leads.run hl (brun_pos hn) hn⟩

theorem Meets.bind {α β : Type} {s : PS X} {nv : Nat} {env : Env} {c1 c2 : Ctx} {r : Out X α} {f : α → SSt X → Out X β} {R1 : Env → α → Prop}
    {R2 : Env → β → Prop} (h : K.Meets Γ ob s nv env c1 r R1) (hn : nv ≤ c1.nv)
    (h' : ∀ a S1 pred env1 m1, r = .ok a S1 → Dyn K Γ ob S1 env1 m1 → Agree nv env env1 → R1 env1 a →
      K.Meets Γ ob (K.pt c1 pred env1 m1 S1.tr) c1.nv env1 c2 (f a S1) R2) : K.Meets Γ ob s nv env c2 (r.bind f) R2 := by
  cases r with
  | ok a S1 =>
    obtain ⟨k, pred, env1, m1, h1, h2, h3, h4⟩ := h
    exact Meets.lead h1 h3 hn (h' a S1 pred env1 m1 rfl h2 h3 h4)
  | ub => trivial
  | halt h tr => exact h

theorem Meets.step {α : Type} {c c1 c2 : Ctx} {S : SSt X} {env : Env} {m : Mem X} {pred : Option Nat} {r : Out X α} {R1 : Env → Prop}
    {R : Env → α → Prop} (hd : Dyn K Γ ob S env m) (hs : K.Step c c1 env R1) (hn : c.nv ≤ c1.nv)
    (h : ∀ env1, Dyn K Γ ob S env1 m → Agree c.nv env env1 → R1 env1 → K.Meets Γ ob (K.pt c1 pred env1 m S.tr) c1.nv env1 c2 r R) :
    K.Meets Γ ob (K.pt c pred env m S.tr) c.nv env c2 r R := by
  obtain ⟨env1, ha, hr, hl⟩ := hs
  exact Meets.lead (hl pred m S.tr) ha hn (h env1 (hd.agree ha) ha hr)

theorem Meets.imp {α : Type} {s : PS X} {nv : Nat} {env : Env} {c' : Ctx} {r : Out X α} {R R' : Env → α → Prop}
    (h : K.Meets Γ ob s nv env c' r R) (hi : ∀ e a, R e a → R' e a) : K.Meets Γ ob s nv env c' r R' := by
  cases r with
  | ok a S' => obtain ⟨k, p, e, m, h1, h2, h3, h4⟩ := h; exact ⟨k, p, e, m, h1, h2, h3, hi _ _ h4⟩
  | ub => trivial
  | halt h tr => exact h

/-- straight-line code at the end -/
theorem Meets.last {α : Type} {c c1 : Ctx} {S : SSt X} {env : Env} {m : Mem X} {pred : Option Nat} {a : α} {R1 : Env → Prop}
    {R : Env → α → Prop} (hd : Dyn K Γ ob S env m) (hs : K.Step c c1 env R1) (hn : c.nv ≤ c1.nv) (hi : ∀ e, R1 e → R e a) :
    K.Meets Γ ob (K.pt c pred env m S.tr) c.nv env c1 (.ok a S) R :=
  Meets.step hd hs hn (fun _ hd1 _ hr => Meets.ok hd1 (hi _ hr))

theorem Meets.congr {α : Type} {s s' : PS X} {nv : Nat} {env : Env} {c' : Ctx} {r : Out X α} {R : Env → α → Prop} (hs : s = s')
    (h : K.Meets Γ ob s' nv env c' r R) : K.Meets Γ ob s nv env c' r R := by rw [hs]; exact h

/-- the end point only matters as a point -/
theorem Meets.endc {α : Type} {s : PS X} {nv : Nat} {env : Env} {c1 c2 : Ctx} {r : Out X α} {R : Env → α → Prop}
    (h : K.Meets Γ ob s nv env c1 r R) (hc : c1.cur = c2.cur) (hk : c1.code c1.cur = c2.code c1.cur) : K.Meets Γ ob s nv env c2 r R := by
  cases r with
  | ok a S' => obtain ⟨k, p, e, m, h1, h2, h3, h4⟩ := h; exact ⟨k, p, e, m, by rw [← pt_congr hc hk]; exact h1, h2, h3, h4⟩
  | ub => trivial
  | halt h tr => exact h

end
end Cmmc.Fe
