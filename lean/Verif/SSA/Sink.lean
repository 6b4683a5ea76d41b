import Verif.SSA.MotionRef
import Verif.SSA.InlineWf
import Verif.SSA.GvnProps
import Verif.SSA.PhiElim
/-!
# CodeSink (cmmc/Transforms/Misc/CodeSink.cpp:38-137) and CodeMove (cmmc/Transforms/Misc/CodeMove.cpp:49-150): C74, C75

CodeSink moves pure instructions of a block that ends with a conditional branch down into the target that alone needs them. CodeMove moves
pure instructions that cannot fail up to the block where their last operand is computed. The block trip counts that decide whether a move pays
are parameters; so is the list of instructions the target machine supports natively.
-/
namespace Cmmc.SSA
section
variable {Op C : Type}

/-! ## CodeSink -/

/-- the first loop of `tryMove` (CodeSink.cpp:77-101): every user of instruction `z` is dominated by `t` -/
def sinkOk (dom : Nat → Nat → Bool) (F : Func Op C) (z t : Nat) : Bool :=
  F.order.all fun b => match F.blk b with
    | none => true
    | some B =>
      B.phis.all (fun p => p.inc.all (fun e => !(match e.2 with | .inst x => x == z | .cst _ => false) || dom t e.1)) &&
      B.body.all (fun j => !(decide (z ∈ instIds j.args)) || dom t b) &&
      (!(decide (z ∈ instIds B.term.args)) || dom t b)

/-- `tryMove` (CodeSink.cpp:76-111): the instruction goes behind the phis of the target -/
def trySink (dom : Nat → Nat → Bool) (b t : Nat) (F : Func Op C) (i : Inst Op C) : Func Op C :=
  if sinkOk dom F i.id t then F.moveTo b t i 0 else F

/-- the target instructions of `b` are moved to (CodeSink.cpp:52-74, 117-128); `colder b t`: the trip count of `t` is smaller -/
def sinkTarget (colder : Nat → Nat → Bool) (F : Func Op C) (b : Nat) (B : Block Op C) : Option Nat :=
  match B.term with
  | .cbr _ t f =>
    let good := fun x => decide (x ≠ b) && (F.preds x).all (fun q => decide (q = b)) && colder b x
    if t = f then none else if good t then some t else if good f then some f else none
  | _ => none

/-- one block (CodeSink.cpp:46-132); `pure op`: `isMovableExpr(inst, false)` -/
def sinkBlock (dom : Nat → Nat → Bool) (pure : Op → Bool) (hot : Nat → Bool) (colder : Nat → Nat → Bool) (F : Func Op C) (b : Nat) : Func Op C :=
  match F.blk b with
  | none => F
  | some B =>
    if hot b then
      match sinkTarget colder F b B with
      | none => F
      | some t => B.body.foldl (fun F i => if pure i.op then trySink dom b t F i else F) F
    else F

/-- `CodeSink::run`: dominance and predecessors are those of the function before the pass; moving instructions does not change them -/
def codeSink (o : Orders) (pure : Op → Bool) (hot : Nat → Bool) (colder : Nat → Nat → Bool) (F : Func Op C) : Option (Func Op C) :=
  (F.dom o).map fun t0 => F.order.foldl (sinkBlock (fun x y => t0.dominate x y) pure hot colder) F

/-! ## CodeMove -/

/-- `isMovableExpr(inst, true)` and `isNativeSupported`, and operands of the same block are to be moved too (CodeMove.cpp:75-99); the loads of
`isUniform` (l.36-44, only in functions made by LoopParallel) are left out -/
def moveOut (spec : Op → List (Opd C) → Bool) (native : Op → Bool) (own : List Nat) : List (Inst Op C) → List Nat → List (Inst Op C)
  | [], _ => []
  | i :: is, set =>
    if spec i.op i.args && native i.op && (instIds i.args).all (fun x => decide (x ∉ own) || decide (x ∈ set)) then i :: moveOut spec native own is (i.id :: set)
    else moveOut spec native own is set

/-- `updateTargetBlock` over the operands (CodeMove.cpp:105-130) -/
def hoistTarget (dom : Nat → Nat → Bool) (F : Func Op C) (xs : List Nat) : Nat :=
  xs.foldl (fun t x => match F.home x with | none => t | some h => if t = h then t else if dom t h then h else t) F.entry

/-- one instruction (CodeMove.cpp:104-147). An operand that has been moved does not belong to `b` any more, so the second look-up (l.121-123)
never finds anything. `worth t b`: the trip count of `t` is significantly smaller than that of `b` -/
def tryHoist (dom worth : Nat → Nat → Bool) (b : Nat) (F : Func Op C) (i : Inst Op C) : Func Op C :=
  if (instIds i.args).any (fun x => decide (F.home x = some b)) then F
  else
    let t := hoistTarget dom F (instIds i.args)
    match F.blk t with
    | none => F
    | some T => if worth t b then F.moveTo b t i T.body.length else F

/-- one block (CodeMove.cpp:62-148) -/
def hoistBlock (dom worth : Nat → Nat → Bool) (spec : Op → List (Opd C) → Bool) (native : Op → Bool) (hot : Nat → Bool) (F : Func Op C) (b : Nat) : Func Op C :=
  match F.blk b with
  | none => F
  | some B =>
    if b = F.entry then F
    else if hot b then (moveOut spec native B.ids B.body []).foldl (tryHoist dom worth b) F
    else F

/-- `CodeMove::run` -/
def codeMove (o : Orders) (worth : Nat → Nat → Bool) (spec : Op → List (Opd C) → Bool) (native : Op → Bool) (hot : Nat → Bool) (F : Func Op C) : Option (Func Op C) :=
  (F.dom o).map fun t0 => F.order.foldl (hoistBlock (fun x y => t0.dominate x y) worth spec native hot) F

/-! ## facts about dominance -/

theorem last_of_two {E : Nat → Nat → Prop} {d e : Nat} (hne : d ≠ e) {x b : Nat} {p : List Nat} (h : Dom.Path E x b p) (hm : d ∈ p ∨ e ∈ p) :
    (∃ q, Dom.Path E d b q ∧ e ∉ q) ∨ (∃ q, Dom.Path E e b q ∧ d ∉ q) := by
  induction h with
  | single a =>
    rcases hm with h | h <;> simp only [List.mem_singleton] at h
    · subst h; exact .inl ⟨[d], .single _, by simpa using hne.symm⟩
    · subst h; exact .inr ⟨[e], .single _, by simpa using hne⟩
  | @cons a y b p ed hp ih =>
    by_cases ht : d ∈ p ∨ e ∈ p
    · exact ih ht
    · simp only [not_or] at ht
      rcases hm with h | h
      · have h := (List.mem_cons.1 h).resolve_right ht.1
        subst h
        exact .inl ⟨d :: p, .cons ed hp, by simp [hne.symm, ht.2]⟩
      · have h := (List.mem_cons.1 h).resolve_right ht.2
        subst h
        exact .inr ⟨e :: p, .cons ed hp, by simp [hne, ht.1]⟩

theorem Avoids.path {F : Func Op C} {d x b : Nat} {p : List Nat} (h : Dom.Path (Edge F) x b p) : Avoids F d x → d ∉ p → Avoids F d b := by
  induction h with
  | single _ => exact fun h _ => h
  | cons e hp ih =>
    intro h hd
    simp only [List.mem_cons, not_or] at hd
    refine ih (h.edge e ?_) hd.2
    rintro rfl
    cases hp <;> simp at hd

/-- of two dominators of a live block one dominates the other -/
theorem Domi.chain {F : Func Op C} {d e b : Nat} (hb : Live F b) (h1 : Domi F d b) (h2 : Domi F e b) : Domi F d e ∨ Domi F e d := by
  by_cases hne : d = e
  · subst hne; exact .inl (domi_self F d)
  · by_contra hcon
    simp only [not_or] at hcon
    have a1 : Avoids F d e := by
      by_contra h; exact hcon.1 (domi_of_avoids h)
    have a2 : Avoids F e d := by
      by_contra h; exact hcon.2 (domi_of_avoids h)
    obtain ⟨p, hp⟩ := hb
    rcases last_of_two hne hp (.inl (h1 p hp)) with ⟨q, hq, hn⟩ | ⟨q, hq, hn⟩
    · exact (a2.path hq hn).not h2
    · exact (a1.path hq hn).not h1

/-- the only predecessor of a block other than the entry dominates it -/
theorem domi_of_pred {F : Func Op C} {b t : Nat} (ht : t ≠ F.entry) (h : ∀ q, Edge F q t → q = b) : Domi F b t := by
  refine domi_of_avoids ?_
  rintro ⟨p, hp, hb⟩
  rcases path_unsnoc hp with h0 | ⟨q, r, h1, h2, h3⟩
  · exact ht h0.1.symm
  · exact hb (by rw [h3]; exact List.mem_append_left _ (h q h2 ▸ path_end h1))

/-! ## specification -/

/-- nothing jumps back to the entry -/
def EntryFirst (F : Func Op C) : Prop := ∀ q, ¬ Edge F q F.entry

/-! ## one move -/

end

section
variable {L : Lang}

/-- what all moves keep -/
structure MoveInv (F0 F : L.F) : Prop where
  wf : LiveWf F
  live : AllLive F
  ref : Refines L F0 F
  entry : F.entry = F0.entry
  order : F.order = F0.order
  edge : Edge F = Edge F0
  perm : F.allIds.Perm F0.allIds

theorem MoveInv.domi {F0 F : L.F} (I : MoveInv F0 F) (x y : Nat) : Domi F x y ↔ Domi F0 x y := by
  unfold Domi; rw [I.edge, I.entry]

theorem MoveInv.liv {F0 F : L.F} (I : MoveInv F0 F) (x : Nat) : Live F x ↔ Live F0 x := by
  unfold Live; rw [I.edge, I.entry]

theorem MoveInv.start {F : L.F} (W : LiveWf F) (hl : AllLive F) : MoveInv F F := ⟨W, hl, Refines.refl F, rfl, rfl, rfl, List.Perm.refl _⟩

theorem MoveInv.move {F0 F : L.F} (I : MoveInv F0 F) {a c n : Nat} {i : Inst L.Op L.C} {A D : L.B} {pure : L.Op → Bool} (M : MoveOk F a c i n A D) (hp : Movable L pure)
    (hi : pure i.op = true) (safe : Domi F a c ∨ ∀ env vs m, evals L env i.args = some vs → ∃ v, L.sem i.op vs m = .ok v m []) : MoveInv F0 (F.moveTo a c i n) where
  wf := M.liveWf I.wf I.live
  live := M.allLive I.live
  ref := I.ref.trans (M.refines I.wf I.live hp hi safe)
  entry := I.entry
  order := I.order
  edge := move_edge_eq.trans I.edge
  perm := by
    refine List.Perm.trans ?_ I.perm
    rw [List.perm_ext_iff_of_nodup (M.liveWf I.wf I.live).unique I.wf.unique]
    intro x
    rw [mem_allIds (M.liveWf I.wf I.live).listed, mem_allIds I.wf.listed]
    constructor
    · rintro ⟨b, hb⟩
      rcases (M.defIn I.wf.toShape).1 hb with ⟨rfl, _⟩ | ⟨_, h⟩
      · exact ⟨a, M.defA⟩
      · exact ⟨b, h⟩
    · rintro ⟨b, hb⟩
      by_cases hx : x = i.id
      · exact ⟨c, (M.defIn I.wf.toShape).2 (.inl ⟨hx, rfl⟩)⟩
      · exact ⟨b, (M.defIn I.wf.toShape).2 (.inr ⟨hx, hb⟩)⟩

/-- the instructions `l` are in block `b` -/
def InBlock (F : L.F) (b : Nat) (l : List (Inst L.Op L.C)) : Prop := ∃ B, F.blk b = some B ∧ ∀ i ∈ l, i ∈ B.body

theorem InBlock.move {F : L.F} {b c n : Nat} {i : Inst L.Op L.C} {l : List (Inst L.Op L.C)} (h : InBlock F b (i :: l)) (hn : ((i :: l).map Inst.id).Nodup) : InBlock (F.moveTo b c i n) b l := by
  obtain ⟨B, hB, h⟩ := h
  refine ⟨movedBlk b c i n b B, by rw [move_blk, hB]; rfl, ?_⟩
  intro j hj
  unfold movedBlk
  rw [if_pos rfl]
  refine List.mem_filter.2 ⟨h j (by simp [hj]), ?_⟩
  simp only [List.map_cons, List.nodup_cons] at hn
  simp only [bne_iff_ne, ne_eq]
  intro he
  exact hn.1 (he ▸ List.mem_map_of_mem hj)

theorem InBlock.tail {F : L.F} {b : Nat} {i : Inst L.Op L.C} {l : List (Inst L.Op L.C)} (h : InBlock F b (i :: l)) : InBlock F b l := by
  obtain ⟨B, hB, h⟩ := h
  exact ⟨B, hB, fun j hj => h j (by simp [hj])⟩

/-- a sequence of moves out of one block -/
theorem moves_foldl {F0 : L.F} {b : Nat} {f : L.F → Inst L.Op L.C → L.F} (Q : Inst L.Op L.C → Prop)
    (hf : ∀ F i l, MoveInv F0 F → Q i → InBlock F b (i :: l) → ((i :: l).map Inst.id).Nodup → MoveInv F0 (f F i) ∧ InBlock (f F i) b l) :
    ∀ (l : List (Inst L.Op L.C)) (F : L.F), MoveInv F0 F → (∀ i ∈ l, Q i) → InBlock F b l → (l.map Inst.id).Nodup → MoveInv F0 (l.foldl f F) := by
  intro l
  induction l with
  | nil => intro F I _ _ _; exact I
  | cons i l ih =>
    intro F I hQ hb hn
    obtain ⟨h1, h2⟩ := hf F i l I (hQ i (by simp)) hb hn
    exact ih _ h1 (fun j hj => hQ j (by simp [hj])) h2 (by simp only [List.map_cons, List.nodup_cons] at hn; exact hn.2)

theorem MoveInv.body_nodup {F0 F : L.F} (I : MoveInv F0 F) {b : Nat} {B : L.B} (hB : F.blk b = some B) : (B.body.map Inst.id).Nodup := by
  have := I.wf.toShape.ids_nodup hB
  unfold Block.ids at this
  exact (List.nodup_append.1 this).2.1

/-! ## CodeSink -/

theorem sinkOk_spec {dom : Nat → Nat → Bool} {F : L.F} {z t : Nat} (hl : F.Listed) (h : sinkOk dom F z t = true) {b : Nat} {B : L.B} (hB : F.blk b = some B) :
    (∀ p ∈ B.phis, ∀ q, (q, Opd.inst z) ∈ p.inc → dom t q = true) ∧ (∀ j ∈ B.body, Opd.inst z ∈ j.args → dom t b = true) ∧ (Opd.inst z ∈ B.term.args → dom t b = true) := by
  unfold sinkOk at h
  rw [List.all_eq_true] at h
  have h := h b (hl b B hB)
  rw [hB] at h
  simp only [Bool.and_eq_true, List.all_eq_true, Bool.or_eq_true, Bool.not_eq_true', decide_eq_false_iff_not, mem_instIds] at h
  obtain ⟨⟨h1, h2⟩, h3⟩ := h
  refine ⟨fun p hp q hq => ?_, fun j hj hz => (h2 j hj).resolve_left (fun h => h hz), fun hz => h3.resolve_left (fun h => h hz)⟩
  have := h1 p hp (q, .inst z) hq
  simpa using this

theorem trySink_ok {F0 F : L.F} {dom : Nat → Nat → Bool} {pure : L.Op → Bool} (hp : Movable L pure) (hdom : ∀ x y, dom x y = true → Domi F0 x y) {b t : Nat}
    (hbt : b ≠ t) (ht : Domi F0 b t) (htF : t ∈ F0.order) (I : MoveInv F0 F) {i : Inst L.Op L.C} {l : List (Inst L.Op L.C)} (hi : pure i.op = true) (hb : InBlock F b (i :: l))
    (hn : ((i :: l).map Inst.id).Nodup) : MoveInv F0 (trySink dom b t F i) ∧ InBlock (trySink dom b t F i) b l := by
  unfold trySink
  split
  · rename_i hok
    obtain ⟨B, hB, hin⟩ := id hb
    have hiB : i ∈ B.body := hin i (by simp)
    obtain ⟨T, hT⟩ := I.wf.total t (I.order ▸ htF)
    have ht' : Domi F b t := (I.domi _ _).2 ht
    have M : MoveOk F b t i 0 B T := by
      refine ⟨hB, hiB, hT, hbt, ?_, ?_, ?_, ?_⟩
      · intro x hx
        obtain ⟨d, h1, h2⟩ := I.wf.use b B x hB (I.live b B hB) (.inl ⟨i, hiB, hx⟩)
        refine ⟨d, h1, h2.trans ht', ?_⟩
        rintro rfl
        exact absurd (Domi.antisymm ht' h2 (I.live _ T hT)) hbt
      · intro b' B' j hB' hj hz
        exact ⟨(I.domi _ _).2 (hdom _ _ ((sinkOk_spec I.wf.listed hok hB').2.1 j hj hz)), fun e => by
          subst e; rw [hT] at hB'; cases hB'; simpa using hj⟩
      · intro b' B' hB' hz
        exact (I.domi _ _).2 (hdom _ _ ((sinkOk_spec I.wf.listed hok hB').2.2 hz))
      · intro b' B' p q hB' hp' hq
        exact (I.domi _ _).2 (hdom _ _ ((sinkOk_spec I.wf.listed hok hB').1 p hp' q hq))
    exact ⟨I.move M hp hi (.inl ht'), hb.move hn⟩
  · exact ⟨I, hb.tail⟩

theorem sinkTarget_spec {colder : Nat → Nat → Bool} {F : L.F} {b t : Nat} {B : L.B} (hl : F.Listed) (h : sinkTarget colder F b B = some t) :
    t ∈ B.term.targets ∧ t ≠ b ∧ ∀ q, Edge F q t → q = b := by
  unfold sinkTarget at h
  split at h
  · rename_i c t1 f1 hterm
    rw [hterm]
    have key : ∀ x, (decide (x ≠ b) && (F.preds x).all (fun q => decide (q = b)) && colder b x) = true → x ≠ b ∧ ∀ q, Edge F q x → q = b := by
      intro x hx
      simp only [Bool.and_eq_true, decide_eq_true_eq, List.all_eq_true] at hx
      exact ⟨hx.1.1, fun q hq => hx.1.2 q ((mem_preds hl).2 hq)⟩
    dsimp only at h
    split at h
    · simp at h
    · split at h
      · rename_i hg
        simp only [Option.some.injEq] at h; subst h
        exact ⟨by simp [Term.targets], key _ hg⟩
      · split at h
        · rename_i hg
          simp only [Option.some.injEq] at h; subst h
          exact ⟨by simp [Term.targets], key _ hg⟩
        · simp at h
  · simp at h

theorem sinkBlock_ok {F0 F : L.F} {dom : Nat → Nat → Bool} {pure : L.Op → Bool} (hp : Movable L pure) (hdom : ∀ x y, dom x y = true → Domi F0 x y) (he : EntryFirst F0)
    (hot : Nat → Bool) (colder : Nat → Nat → Bool) (b : Nat) (I : MoveInv F0 F) : MoveInv F0 (sinkBlock dom pure hot colder F b) := by
  unfold sinkBlock
  split
  · exact I
  · rename_i B hB
    split
    · split
      · exact I
      · rename_i t hst
        obtain ⟨h1, h2, h3⟩ := sinkTarget_spec I.wf.listed hst
        have hedge : Edge F b t := ⟨B, hB, h1⟩
        have hte : t ≠ F.entry := by
          rintro rfl
          refine he b ?_
          rw [← I.edge, ← I.entry]; exact hedge
        have ht : Domi F0 b t := (I.domi _ _).1 (domi_of_pred hte h3)
        refine moves_foldl (b := b) (fun _ => True) ?_ B.body F I (fun _ _ => trivial) ⟨B, hB, fun i hi => hi⟩ (I.body_nodup hB)
        intro G i l J _ hb hn
        split
        · rename_i hi
          exact trySink_ok hp hdom (Ne.symm h2) ht (I.order ▸ I.wf.closed b t hedge) J hi hb hn
        · exact ⟨J, hb.tail⟩
    · exact I

theorem moveInv_foldl {F0 : L.F} {f : L.F → Nat → L.F} (hf : ∀ F b, MoveInv F0 F → MoveInv F0 (f F b)) : ∀ (l : List Nat) (F : L.F), MoveInv F0 F → MoveInv F0 (l.foldl f F) := by
  intro l
  induction l with
  | nil => intro F I; exact I
  | cons b l ih => intro F I; exact ih _ (hf F b I)

/-- **C74** CodeSink keeps the behaviour of a function in SSA form whose entry is not a jump target, whatever the trip counts, and its result is in SSA form, with the
same blocks and edges and the same instructions. -/
theorem C74_codeSink (o : Orders) {pure : L.Op → Bool} (hp : Movable L pure) (hot : Nat → Bool) (colder : Nat → Nat → Bool) {F : L.F} (W : LiveWf F) (hl : AllLive F) (he : EntryFirst F) :
    ∃ G, codeSink o pure hot colder F = some G ∧ Refines L F G ∧ LiveWf G ∧ AllLive G ∧ G.entry = F.entry ∧ G.order = F.order ∧ Edge G = Edge F ∧ G.allIds.Perm F.allIds := by
  obtain ⟨t0, e, _, hd, _⟩ := dom_spec o W.nodup W.listed
  have I := moveInv_foldl (fun G b J => sinkBlock_ok (dom := fun x y => t0.dominate x y) hp (fun x y h => ((hd x y).1 h).2) he hot colder b J) F.order F (MoveInv.start W hl)
  exact ⟨_, by unfold codeSink; rw [e]; rfl, I.ref, I.wf, I.live, I.entry, I.order, I.edge, I.perm⟩

/-! ## CodeMove -/

theorem moveOut_mem {spec : L.Op → List (Opd L.C) → Bool} {native : L.Op → Bool} {own : List Nat} : ∀ {is : List (Inst L.Op L.C)} {set : List Nat},
    (moveOut spec native own is set).Sublist is ∧ ∀ i ∈ moveOut spec native own is set, spec i.op i.args = true := by
  intro is
  induction is with
  | nil => intro set; exact ⟨List.Sublist.refl _, by simp [moveOut]⟩
  | cons i is ih =>
    intro set
    unfold moveOut
    split
    · rename_i h
      obtain ⟨h1, h2⟩ := ih (set := i.id :: set)
      simp only [Bool.and_eq_true] at h
      refine ⟨h1.cons_cons i, fun j hj => ?_⟩
      rcases List.mem_cons.1 hj with rfl | hj
      · exact h.1.1
      · exact h2 j hj
    · obtain ⟨h1, h2⟩ := ih (set := set)
      exact ⟨h1.cons i, h2⟩

theorem hoistTarget_spec {dom : Nat → Nat → Bool} {F : L.F} (hdom : ∀ x y, Live F y → (dom x y = true ↔ Domi F x y)) (W : LiveWf F) (hl : AllLive F) {b : Nat} (hb : Live F b) :
    ∀ (xs : List Nat) (t : Nat), Domi F t b → (∀ x ∈ xs, ∃ d, DefIn F x d ∧ Domi F d b) →
      let r := xs.foldl (fun t x => match F.home x with | none => t | some h => if t = h then t else if dom t h then h else t) t
      Domi F r b ∧ Domi F t r ∧ ∀ x ∈ xs, ∃ d, DefIn F x d ∧ Domi F d r := by
  intro xs
  induction xs with
  | nil => intro t ht _; exact ⟨ht, domi_self F t, by simp⟩
  | cons x xs ih =>
    intro t ht hx
    obtain ⟨d, hd, hdb⟩ := hx x (by simp)
    have hh : F.home x = some d := (home_eq W.listed W.unique).2 hd
    simp only [List.foldl_cons, hh]
    obtain ⟨u, hu, hu1, hu2, hu3⟩ : ∃ u, (if t = d then t else if dom t d = true then d else t) = u ∧ Domi F u b ∧ Domi F t u ∧ Domi F d u := by
      refine ⟨_, rfl, ?_⟩
      split
      · rename_i e; subst e; exact ⟨ht, domi_self F t, domi_self F t⟩
      · split
        · rename_i h
          exact ⟨hdb, (hdom t d (hdb.live hb)).1 h, domi_self F d⟩
        · rename_i h
          refine ⟨ht, domi_self F t, ?_⟩
          rcases Domi.chain hb ht hdb with h' | h'
          · exact absurd ((hdom t d (hdb.live hb)).2 h') h
          · exact h'
    rw [hu]
    obtain ⟨r1, r2, r3⟩ := ih u hu1 (fun y hy => hx y (by simp [hy]))
    refine ⟨r1, hu2.trans r2, ?_⟩
    intro y hy
    rcases List.mem_cons.1 hy with rfl | hy
    · exact ⟨d, hd, hu3.trans r2⟩
    · exact r3 y hy

theorem hoistTarget_ne {dom : Nat → Nat → Bool} {F : L.F} {b : Nat} : ∀ (xs : List Nat) (t : Nat), t ≠ b → (∀ x ∈ xs, F.home x ≠ some b) →
      xs.foldl (fun t x => match F.home x with | none => t | some h => if t = h then t else if dom t h then h else t) t ≠ b := by
  intro xs
  induction xs with
  | nil => intro t ht _; exact ht
  | cons x xs ih =>
    intro t ht hx
    rw [List.foldl_cons]
    refine ih _ ?_ (fun y hy => hx y (by simp [hy]))
    cases hh : F.home x with
    | none => exact ht
    | some h =>
      have : h ≠ b := fun e => hx x (by simp) (by rw [hh, e])
      dsimp only
      split
      · exact ht
      · split
        · exact this
        · exact ht

theorem opdLike_refl {C : Type} (o : Opd C) : OpdLike o o := by
  cases o <;> simp [OpdLike]

theorem tryHoist_ok {F0 F : L.F} {dom : Nat → Nat → Bool} {pure : L.Op → Bool} (hp : Movable L pure) {spec : L.Op → List (Opd L.C) → Bool} (hspec : SpecOk L spec)
    (hpure : ∀ op args, spec op args = true → pure op = true) (hdom : ∀ x y, Live F0 y → (dom x y = true ↔ Domi F0 x y)) (worth : Nat → Nat → Bool) {b : Nat} (hbe : b ≠ F0.entry)
    (I : MoveInv F0 F) {i : Inst L.Op L.C} {l : List (Inst L.Op L.C)} (hi : spec i.op i.args = true) (hb : InBlock F b (i :: l)) (hn : ((i :: l).map Inst.id).Nodup) :
    MoveInv F0 (tryHoist dom worth b F i) ∧ InBlock (tryHoist dom worth b F i) b l := by
  unfold tryHoist
  split
  · exact ⟨I, hb.tail⟩
  · rename_i hany
    simp only [List.any_eq_true, decide_eq_true_eq, not_exists, not_and] at hany
    dsimp only
    split
    · exact ⟨I, hb.tail⟩
    · rename_i T hT
      split
      · obtain ⟨B, hB, hin⟩ := id hb
        have hiB : i ∈ B.body := hin i (by simp)
        have hlb := I.live b B hB
        have hdom' : ∀ x y, Live F y → (dom x y = true ↔ Domi F x y) := fun x y hy => by rw [I.domi]; exact hdom x y ((I.liv y).1 hy)
        obtain ⟨r1, r2, r3⟩ := hoistTarget_spec hdom' I.wf I.live hlb (instIds i.args) F.entry
          (fun p hp => by cases hp <;> simp) (fun x hx => I.wf.use b B x hB hlb (.inl ⟨i, hiB, mem_instIds.1 hx⟩))
        have hne := hoistTarget_ne (dom := dom) (F := F) (b := b) (instIds i.args) F.entry (by rw [I.entry]; exact Ne.symm hbe) hany
        change Domi F (hoistTarget dom F (instIds i.args)) b at r1
        change hoistTarget dom F (instIds i.args) ≠ b at hne
        change ∀ x ∈ instIds i.args, ∃ d, DefIn F x d ∧ Domi F d (hoistTarget dom F (instIds i.args)) at r3
        generalize hoistTarget dom F (instIds i.args) = t at r1 hne r3 hT
        have hzb : DefIn F i.id b := ⟨B, hB, List.mem_append_right _ (List.mem_map_of_mem hiB)⟩
        have use : ∀ b' B', F.blk b' = some B' → ((∃ j ∈ B'.body, Opd.inst i.id ∈ j.args) ∨ Opd.inst i.id ∈ B'.term.args) → Domi F b b' := by
          intro b' B' hB' hx
          obtain ⟨d, h1, h2⟩ := I.wf.use b' B' i.id hB' (I.live b' B' hB') hx
          rw [defIn_unique I.wf.listed I.wf.unique hzb h1]; exact h2
        have M : MoveOk F b t i T.body.length B T := by
          refine ⟨hB, hiB, hT, Ne.symm hne, ?_, ?_, ?_, ?_⟩
          · intro x hx
            obtain ⟨d, h1, h2⟩ := r3 x (mem_instIds.2 hx)
            refine ⟨d, h1, h2, ?_⟩
            rintro rfl
            obtain ⟨T', hT', hxT⟩ := h1
            rw [hT] at hT'; cases hT'
            rw [List.take_length]
            exact List.mem_append.1 hxT
          · intro b' B' j hB' hj hz
            have := use b' B' hB' (.inl ⟨j, hj, hz⟩)
            refine ⟨r1.trans this, ?_⟩
            rintro rfl
            exact absurd (Domi.antisymm r1 this hlb) hne
          · intro b' B' hB' hz
            exact r1.trans (use b' B' hB' (.inr hz))
          · intro b' B' p q hB' hp' hq
            have hql : Live F q := by
              obtain ⟨Q, hQ, _⟩ := I.wf.phiPred b' B' p hB' (I.live b' B' hB') hp' q _ hq
              exact I.live q Q hQ
            obtain ⟨d, h1, h2⟩ := I.wf.phiUse b' B' p q i.id hB' (I.live b' B' hB') hp' hq hql
            rw [← defIn_unique I.wf.listed I.wf.unique hzb h1] at h2
            exact r1.trans h2
        refine ⟨I.move M hp (hpure _ _ hi) (.inr ?_), hb.move hn⟩
        intro env vs m hvs
        exact hspec i.op i.args i.args hi (List.forall₂_same.2 (fun o _ => opdLike_refl o)) env vs m hvs
      · exact ⟨I, hb.tail⟩

theorem hoistBlock_ok {F0 F : L.F} {dom : Nat → Nat → Bool} {pure : L.Op → Bool} (hp : Movable L pure) {spec : L.Op → List (Opd L.C) → Bool} (hspec : SpecOk L spec)
    (hpure : ∀ op args, spec op args = true → pure op = true) (hdom : ∀ x y, Live F0 y → (dom x y = true ↔ Domi F0 x y)) (worth : Nat → Nat → Bool) (native : L.Op → Bool) (hot : Nat → Bool) (b : Nat)
    (I : MoveInv F0 F) : MoveInv F0 (hoistBlock dom worth spec native hot F b) := by
  unfold hoistBlock
  split
  · exact I
  · rename_i B hB
    split
    · exact I
    · rename_i hbe
      split
      · obtain ⟨h1, h2⟩ := moveOut_mem (spec := spec) (native := native) (own := B.ids) (is := B.body) (set := [])
        exact moves_foldl (b := b) (fun i => spec i.op i.args = true)
          (fun G i l J hi hb hn => tryHoist_ok hp hspec hpure hdom worth (by rw [← I.entry]; exact hbe) J hi hb hn) _ F I h2
          ⟨B, hB, fun i hi => h1.subset hi⟩ ((I.body_nodup hB).sublist (h1.map _))
      · exact I

/-- **C75** CodeMove keeps the behaviour of a function in SSA form, whatever the trip counts and the target machine, as long as the instructions it selects compute a
value for any operands; its result is in SSA form, with the same blocks and edges and the same instructions. -/
theorem C75_codeMove (o : Orders) {pure : L.Op → Bool} (hp : Movable L pure) {spec : L.Op → List (Opd L.C) → Bool} (hspec : SpecOk L spec)
    (hpure : ∀ op args, spec op args = true → pure op = true) (worth : Nat → Nat → Bool) (native : L.Op → Bool) (hot : Nat → Bool) {F : L.F} (W : LiveWf F) (hl : AllLive F) :
    ∃ G, codeMove o worth spec native hot F = some G ∧ Refines L F G ∧ LiveWf G ∧ AllLive G ∧ G.entry = F.entry ∧ G.order = F.order ∧ Edge G = Edge F ∧ G.allIds.Perm F.allIds := by
  obtain ⟨t0, e, _, hd, _⟩ := dom_spec o W.nodup W.listed
  have I := moveInv_foldl (fun G b J => hoistBlock_ok (dom := fun x y => t0.dominate x y) hp hspec hpure
    (fun x y hy => ⟨fun h => ((hd x y).1 h).2, fun h => (hd x y).2 ⟨hy, h⟩⟩) worth native hot b J) F.order F (MoveInv.start W hl)
  exact ⟨_, by unfold codeMove; rw [e]; rfl, I.ref, I.wf, I.live, I.entry, I.order, I.edge, I.perm⟩

end
end Cmmc.SSA
