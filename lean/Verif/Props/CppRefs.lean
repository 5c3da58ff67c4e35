import Verif.Props.CppArray

/-!
# C134: the references of the C++ arrays
-/
namespace Props
open Py Model Model.Cpp Spec
set_option linter.unusedSectionVars false
variable {α : Type} [DecidableEq α]

/-- No object is freed that somebody still refers to: whatever the number `ext` of references held outside the array, the reference count of an object held
outside or by a cell is positive. -/
def Alive (data : List (Option α)) (owns : α → Int) : Prop :=
  ∀ (x : α) (ext : Nat), 0 < ext ∨ some x ∈ data → 0 < (ext : Int) + owns x

/-- No object is kept that nobody refers to: an object that is in no cell and not referred to outside has reference count 0. -/
def NoLeak (data : List (Option α)) (owns : α → Int) : Prop := ∀ x : α, some x ∉ data → owns x = 0

/-- The array owns one reference for every cell. -/
def OnePerCell (data : List (Option α)) (owns : α → Int) : Prop := ∀ x : α, owns x = data.count (some x)

theorem OnePerCell.alive {data : List (Option α)} {owns : α → Int} (h : OnePerCell data owns) : Alive data owns := by
  intro x ext hx
  rw [h x]
  rcases hx with hx | hx
  · omega
  · have := List.count_pos_iff.mpr hx
    omega

theorem OnePerCell.noLeak {data : List (Option α)} {owns : α → Int} (h : OnePerCell data owns) : NoLeak data owns := by
  intro x hx
  rw [h x, List.count_eq_zero.mpr hx]
  rfl

/-- The references are those of the cells, up to a constant. -/
def Off (c : α → Int) (a : RArr α) : Prop := ∀ x : α, a.owns x = a.data.count (some x) + c x

theorem off_write {c : α → Int} {a : RArr α} (h : Off c a) {i : Nat} (hi : i < a.data.length) (v : Option α) :
    Off c ⟨a.data.set i v, decref (incref a.owns v) a.data[i]⟩ := by
  intro x
  have hx := h x
  have hc := List.count_set (a := v) (b := some x) (l := a.data) (i := i) hi
  have hp : a.data[i] = some x → 0 < a.data.count (some x) := by
    intro e
    exact List.count_pos_iff.mpr (e ▸ List.getElem_mem hi)
  simp only [decref, incref]
  rw [hc]
  by_cases h1 : a.data[i] = some x <;> by_cases h2 : v = some x <;> simp [h1, h2] <;> (try have := hp h1) <;> omega

theorem off_fill {c : α → Int} (v : Option α) : ∀ (k i : Nat) (a a' : RArr α), Off c a → caFillLoop v k i a = .ok a' → Off c a' := by
  intro k
  induction k with
  | zero => intro i a a' h e; cases e; exact h
  | succ k ih =>
    intro i a a' h e
    rw [caFillLoop] at e
    by_cases hi : i < a.data.length
    · rw [vget_of_lt hi, ok_bind] at e
      dsimp only at e
      rw [vset_of_lt hi, ok_bind] at e
      exact ih _ _ _ (off_write h hi v) e
    · have : vget a.data i = .error .undefined := by simp [vget, List.getElem?_eq_none (Nat.le_of_not_lt hi)]
      rw [this, error_bind] at e
      cases e

theorem off_set {c : α → Int} {inst : Option α → Bool} {a a' : RArr α} {i : Int} {v : Option α} (h : Off c a) (e : caSet inst a i v = .ok a') : Off c a' := by
  rw [caSet] at e
  split at e
  · cases e
  · split at e
    · cases e
    · split at e
      · cases e
      · have hi : i.toNat < a.data.length := by omega
        rw [vget_of_lt hi, ok_bind] at e
        dsimp only at e
        rw [vset_of_lt hi, ok_bind] at e
        cases e
        exact off_write h hi v

theorem off_step {c : α → Int} (inst : Option α → Bool) {a : RArr α} (op : ArrOp α) (h : Off c a) : Off c (caStep inst a op).1 := by
  cases op with
  | get i => simp only [caStep]; cases caGet a i <;> exact h
  | set i v =>
    simp only [caStep]
    cases e : caSet inst a i v with
    | ok a' => exact off_set h e
    | error _ => exact h
  | fill v =>
    simp only [caStep]
    cases e : caFill inst a v with
    | ok a' =>
      rw [caFill] at e
      split at e
      · cases e
      · exact off_fill v _ _ _ _ h e
    | error _ => exact h
  | len => exact h

theorem off_history {c : α → Int} (inst : Option α → Bool) (ops : List (ArrOp α)) {a : RArr α} (h : Off c a) : Off c (final (caStep inst) a ops) := by
  induction ops generalizing a with
  | nil => exact h
  | cons op ops ih => exact ih (off_step inst op h)

theorem cleanup_eq : ∀ (cells : List (Option α)) (owns : α → Int) (x : α), cleanupPartial owns cells x = owns x - cells.count (some x) := by
  intro cells
  induction cells with
  | nil => intro owns x; simp [cleanupPartial]
  | cons y cells ih =>
    intro owns x
    have := ih (decref owns y) x
    rw [cleanupPartial] at this
    rw [cleanupPartial, List.foldl_cons, this, List.count_cons]
    simp only [decref]
    by_cases h : y = some x <;> simp [h]
    omega

theorem load_owns (inst : Option α → Bool) : ∀ (l cells : List (Option α)) (owns : α → Int), (∀ x, owns x = cells.count (some x)) →
    (∀ cells', (caLoad inst l cells owns).2 = .ok cells' → ∀ x, (caLoad inst l cells owns).1 x = cells'.count (some x)) ∧
    (∀ e, (caLoad inst l cells owns).2 = .error e → ∀ x, (caLoad inst l cells owns).1 x = 0) := by
  intro l
  induction l with
  | nil =>
    intro cells owns h
    refine ⟨fun cells' e => ?_, fun e he => by simp [caLoad] at he⟩
    have : cells = cells' := by simpa [caLoad] using e
    subst this
    exact h
  | cons y l ih =>
    intro cells owns h
    by_cases hy : inst y = true
    · rw [caLoad, if_pos hy]
      refine ih _ _ ?_
      intro x
      rw [List.count_append, List.count_singleton]
      simp only [incref, h x]
      by_cases h1 : y = some x <;> simp [h1]
    · rw [caLoad, if_neg hy]
      refine ⟨fun cells' e => (nomatch e), fun e _ x => ?_⟩
      dsimp only
      rw [cleanup_eq]
      simp only [decref, incref]
      by_cases h1 : y = some x <;> simp [h1, h x]

/-- An array made by one of the constructors: the cells and the references after it returned. -/
inductive Made (inst : Option α → Bool) : RArr α → Prop
  | list {l : List (Option α)} {cells : List (Option α)} : (caOfList inst l).2 = .ok cells → Made inst ⟨cells, (caOfList inst l).1⟩
  | listSize {l : List (Option α)} {n : Nat} {cells : List (Option α)} : (caOfListSize inst l n).2 = .ok cells → Made inst ⟨cells, (caOfListSize inst l n).1⟩
  | size {n : Nat} {cells : List (Option α)} : (caOfSize inst n none).2 = .ok cells → Made inst ⟨cells, (caOfSize inst n none).1⟩

theorem Made.off {inst : Option α → Bool} {a : RArr α} (h : Made inst a) : Off (fun _ => 0) a := by
  have key : ∀ {l cells : List (Option α)}, (caOfList inst l).2 = .ok cells → Off (fun _ => 0) ⟨cells, (caOfList inst l).1⟩ := by
    intro l cells e x
    have := (load_owns inst l [] (fun _ => 0) (by simp)).1 cells e x
    simpa [caOfList] using this
  cases h with
  | list e => exact key e
  | @listSize l n cells e =>
    rw [caOfListSize] at e ⊢
    by_cases hn : n = l.length
    · rw [if_neg (by simpa using hn)] at e ⊢
      exact key e
    · rw [if_pos hn] at e
      cases e
  | @size n cells e =>
    intro x
    have : cells = List.replicate n none := by simpa [caOfSize] using e.symm
    subst this
    simp [caOfSize, List.count_replicate]

/-- **C134**, proved part: an array made from elements, or from a size without `init`, owns after every history exactly one reference for each of its cells; no
object is freed that is still referred to, and none is kept that is not. -/
theorem C134_balanced_partial (inst : Option α → Bool) {a : RArr α} (h : Made inst a) (ops : List (ArrOp α)) :
    OnePerCell (final (caStep inst) a ops).data (final (caStep inst) a ops).owns ∧
    Alive (final (caStep inst) a ops).data (final (caStep inst) a ops).owns ∧
    NoLeak (final (caStep inst) a ops).data (final (caStep inst) a ops).owns := by
  have hb : OnePerCell (final (caStep inst) a ops).data (final (caStep inst) a ops).owns := fun x => by
    have := off_history inst ops h.off x
    simpa using this
  exact ⟨hb, hb.alive, hb.noLeak⟩

/-- A constructor that refuses its elements gives back all references it took. -/
theorem C134_failed (inst : Option α → Bool) (l : List (Option α)) (n : Nat) (e : PyErr) :
    ((caOfList inst l).2 = .error e → ∀ x, (caOfList inst l).1 x = 0) ∧ ((caOfListSize inst l n).2 = .error e → ∀ x, (caOfListSize inst l n).1 x = 0) := by
  have key : (caOfList inst l).2 = .error e → ∀ x, (caOfList inst l).1 x = 0 := (load_owns inst l [] (fun _ => 0) (by simp)).2 e
  refine ⟨key, ?_⟩
  rw [caOfListSize]
  by_cases hn : n = l.length
  · rw [if_neg (by simpa using hn)]
    exact key
  · rw [if_pos hn]
    intro _ x
    rfl

/-- What an array made with `init` owns after a history: `n - 1` references to `init` less than there are cells. -/
theorem C134_init (inst : Option α → Bool) (n : Nat) (x : α) {cells : List (Option α)} (e : (caOfSize inst n (some (some x))).2 = .ok cells) (ops : List (ArrOp α)) (y : α) :
    (final (caStep inst) ⟨cells, (caOfSize inst n (some (some x))).1⟩ ops).owns y =
      (final (caStep inst) ⟨cells, (caOfSize inst n (some (some x))).1⟩ ops).data.count (some y) - if y = x then (n : Int) - 1 else 0 := by
  have hoff : Off (fun y => if y = x then 1 - (n : Int) else 0) ⟨cells, (caOfSize inst n (some (some x))).1⟩ := by
    simp only [caOfSize] at e ⊢
    split at e
    · cases e
    · rename_i hn
      rw [if_neg hn]
      cases e
      intro y
      simp only [incref, List.count_replicate]
      by_cases h : y = x
      · subst h; simp; omega
      · have h' : ¬ x = y := fun h' => h h'.symm
        simp [h, h']
  have := off_history inst ops hoff y
  rw [this]
  split <;> omega

/-- **C134**, exactly for arrays made with `init`: no history frees an object that is still referred to if and only if the array has at most one cell. -/
theorem C134_init_exact (inst : Option α → Bool) (n : Nat) (x : α) {cells : List (Option α)} (e : (caOfSize inst n (some (some x))).2 = .ok cells) :
    (∀ ops, Alive (final (caStep inst) ⟨cells, (caOfSize inst n (some (some x))).1⟩ ops).data
      (final (caStep inst) ⟨cells, (caOfSize inst n (some (some x))).1⟩ ops).owns) ↔ n ≤ 1 := by
  constructor
  · intro h
    have h1 := h [.fill none] x 1 (.inl (by omega))
    rw [C134_init inst n x e] at h1
    have h2 : (final (caStep inst) ⟨cells, (caOfSize inst n (some (some x))).1⟩ [.fill none]).data = List.replicate cells.length none := by
      have := (caStep_spec inst ⟨cells, (caOfSize inst n (some (some x))).1⟩ (.fill none) trivial).1
      simpa [final, arraySpec] using this
    rw [h2, List.count_replicate] at h1
    simp at h1
    omega
  · intro hn ops y ext hy
    rw [C134_init inst n x e]
    have hc : some y ∈ (final (caStep inst) ⟨cells, (caOfSize inst n (some (some x))).1⟩ ops).data →
        0 < (final (caStep inst) ⟨cells, (caOfSize inst n (some (some x))).1⟩ ops).data.count (some y) := List.count_pos_iff.mpr
    have : (if y = x then (n : Int) - 1 else 0) ≤ 0 := by split <;> omega
    rcases hy with hy | hy
    · omega
    · have := hc hy
      omega

/-- When the array itself is freed its references are not given back: every object in one of its cells is kept for ever. -/
theorem C134_dealloc (inst : Option α → Bool) {a : RArr α} (h : Made inst a) (ops : List (ArrOp α)) (x : α) :
    caDealloc (final (caStep inst) a ops) x = (final (caStep inst) a ops).data.count (some x) :=
  (C134_balanced_partial inst h ops).1 x

/-- C134 for all constructors and for the life of an array: nothing is freed early, and when the array is freed nothing stays. -/
def C134_full : Prop := ∀ (inst : Option Nat → Bool) (a : RArr Nat),
  (Made inst a ∨ ∃ n x cells, (caOfSize inst n (some (some x))).2 = .ok cells ∧ a = ⟨cells, (caOfSize inst n (some (some x))).1⟩) →
  ∀ ops, Alive (final (caStep inst) a ops).data (final (caStep inst) a ops).owns ∧ NoLeak [] (caDealloc (final (caStep inst) a ops))

theorem C134_full_false : ¬ C134_full := by
  intro h
  have := (C134_init_exact (fun _ => true) 2 7 (cells := [some 7, some 7]) rfl).mp
    (fun ops => (h (fun _ => true) _ (.inr ⟨2, 7, [some 7, some 7], rfl, rfl⟩) ops).1)
  omega

/-- The concrete history: two cells filled with the object 7 through `init`, both overwritten; the caller's own reference to 7 is the one given back. -/
example : (final (caStep fun _ => true) (⟨[some 7, some 7], (caOfSize (fun _ : Option Nat => true) 2 (some (some 7))).1⟩ : RArr Nat)
    [.set 0 (some 8), .set 1 (some 8)]).owns 7 = -1 := rfl

/-- An array of three elements meets the hypothesis of `C134_balanced_partial`. -/
example : Made (fun _ : Option Nat => true) ⟨[some 1, some 2, some 1], (caOfList (fun _ : Option Nat => true) [some 1, some 2, some 1]).1⟩ := .list rfl

/-! ## Dynamic arrays and stacks -/

/-- The calls that change a dynamic array. -/
inductive DynOp (α : Type)
  | append (v : Option α)
  | delete (i : Int)
  | modify (force : Bool)
  | set (i : Int) (v : Option α)
  | fill (v : Option α)

def rdCall (low : Nat → Nat → Bool) (inst : Option α → Bool) (s : RDyn α) : DynOp α → PyM (RDyn α)
  | .append v => rdAppend low s v
  | .delete i => rdDelete low s i
  | .modify force => rdModify low force s
  | .set i v => rdSet inst s i v
  | .fill v => rdFill inst s v

/-- The array after a history; `none` if one of the calls has undefined behaviour. A call that raises changes nothing. -/
def rdRun (low : Nat → Nat → Bool) (inst : Option α → Bool) : List (DynOp α) → RDyn α → Option (RDyn α)
  | [], s => some s
  | op :: ops, s => match rdCall low inst s op with
    | .ok s' => rdRun low inst ops s'
    | .error .undefined => none
    | .error _ => rdRun low inst ops s

/-- There is a reference for every cell, perhaps more. -/
def Covered (data : List (Option α)) (owns : α → Int) : Prop := ∀ x : α, (data.count (some x) : Int) ≤ owns x

theorem Covered.alive {data : List (Option α)} {owns : α → Int} (h : Covered data owns) : Alive data owns := by
  intro x ext hx
  have h1 := h x
  rcases hx with hx | hx
  · omega
  · have := List.count_pos_iff.mpr hx
    omega

theorem count_set_le {l l' : List (Option α)} {i : Nat} {v : Option α} (e : vset l i v = .ok l') (x : Option α) :
    l'.count x ≤ l.count x + (if v = x then 1 else 0) := by
  rw [vset] at e
  split at e
  · rename_i hi
    cases e
    rw [List.count_set hi]
    by_cases h : v = x <;> simp [h]
  · cases e

theorem compact_count : ∀ (src : List (Option α)) (j : Nat) (new new' : List (Option α)) (j' : Nat), dcCompact src j new = .ok (new', j') →
    ∀ x : α, new'.count (some x) ≤ new.count (some x) + src.count (some x) := by
  intro src
  induction src with
  | nil => intro j new new' j' e x; cases e; simp
  | cons y src ih =>
    intro j new new' j' e x
    cases y with
    | none =>
      rw [dcCompact] at e
      have := ih j new new' j' e x
      simpa [List.count_cons] using this
    | some y =>
      rw [dcCompact] at e
      cases e1 : vset new j (some y) with
      | error _ => rw [e1, error_bind] at e; cases e
      | ok new1 =>
        rw [e1, ok_bind] at e
        have h1 := ih _ _ _ _ e x
        have h2 := count_set_le e1 (some x)
        rw [List.count_cons]
        by_cases h : some y = some x <;> simp [h] at h2 ⊢ <;> omega

theorem modify_count {low : Nat → Nat → Bool} {force : Bool} {d d' : Doda α} (e : dcModify low force d = .ok d') (x : α) :
    d'.data.count (some x) ≤ d.data.count (some x) := by
  rw [dcModify] at e
  have : ∃ cnt, (if d.data.length ≠ 0 ∧ low d.num d.data.length = true then
      (if cnt ≤ d.data.length then (do
        let (new, j) ← dcCompact (d.data.take cnt) 0 (List.replicate (2 * d.num + 1) none)
        .ok ⟨new, d.num, j⟩ : PyM (Doda α))
      else .error .undefined)
    else .ok { d with cnt := cnt }) = .ok d' := by
    cases force with
    | true =>
      simp only [if_true] at e
      cases hc : dcLast d.data d.data.length with
      | ok cnt => rw [hc, ok_bind] at e; exact ⟨cnt, e⟩
      | error _ => rw [hc, error_bind] at e; cases e
    | false =>
      rw [if_neg (by decide), ok_bind] at e
      exact ⟨d.cnt, e⟩
  obtain ⟨cnt, e⟩ := this
  split at e
  · split at e
    · cases e1 : dcCompact (d.data.take cnt) 0 (List.replicate (2 * d.num + 1) none) with
      | error _ => rw [e1, error_bind] at e; cases e
      | ok p =>
        rw [e1, ok_bind] at e
        cases e
        have h1 := compact_count _ _ _ _ _ e1 x
        have h2 : (d.data.take cnt).count (some x) ≤ d.data.count (some x) := (List.take_sublist _ _).count_le _
        rw [List.count_replicate] at h1
        simp at h1
        exact Nat.le_trans h1 h2
    · cases e
  · cases e
    exact Nat.le_refl _

theorem append_count {low : Nat → Nat → Bool} {d d' : Doda α} {el : Option α} (e : dcAppend low d el = .ok d') (x : α) :
    d'.data.count (some x) ≤ d.data.count (some x) + if el = some x then 1 else 0 := by
  rw [dcAppend] at e
  dsimp only at e
  split at e
  · cases e1 : vset (d.data.take d.cnt ++ List.replicate (2 * d.data.length + 1 - d.cnt) none) d.cnt el with
    | error _ => rw [e1, error_bind] at e; cases e
    | ok data =>
      rw [e1, ok_bind] at e
      have h1 := modify_count e x
      have h2 := count_set_le e1 (some x)
      rw [List.count_append, List.count_replicate] at h2
      have h3 : (d.data.take d.cnt).count (some x) ≤ d.data.count (some x) := (List.take_sublist _ _).count_le _
      simp at h2
      dsimp only at h1
      omega
  · cases e1 : vset d.data d.cnt el with
    | error _ => rw [e1, error_bind] at e; cases e
    | ok data =>
      rw [e1, ok_bind] at e
      have h1 := modify_count e x
      have h2 := count_set_le e1 (some x)
      dsimp only at h1
      omega

theorem delete_count {low : Nat → Nat → Bool} {d d' : Doda α} {i : Int} (e : dcDelete low d i = .ok d') (x : α) :
    d'.data.count (some x) ≤ d.data.count (some x) := by
  rw [dcDelete] at e
  split at e
  · cases e1 : vget d.data i.toNat with
    | error _ => rw [e1, error_bind] at e; cases e
    | ok y =>
      rw [e1, ok_bind] at e
      cases y with
      | none => cases e; exact Nat.le_refl _
      | some y =>
        dsimp only at e
        cases e2 : vset d.data i.toNat none with
        | error _ => rw [e2, error_bind] at e; cases e
        | ok data =>
          rw [e2, ok_bind] at e
          have h1 := modify_count e x
          have h2 := count_set_le e2 (some x)
          simp at h2
          exact Nat.le_trans h1 h2
  · cases e
    exact Nat.le_refl _

theorem covered_off {data : List (Option α)} {owns : α → Int} : Covered data owns ↔ ∃ c : α → Int, (∀ x, 0 ≤ c x) ∧ Off c ⟨data, owns⟩ := by
  constructor
  · intro h
    exact ⟨fun x => owns x - data.count (some x), fun x => by have := h x; dsimp only; omega, fun x => by dsimp only; omega⟩
  · rintro ⟨c, h1, h2⟩ x
    have := h1 x
    have := h2 x
    dsimp only at this
    omega

theorem covered_call {low : Nat → Nat → Bool} {inst : Option α → Bool} {s s' : RDyn α} {op : DynOp α} (h : Covered s.d.data s.owns)
    (e : rdCall low inst s op = .ok s') : Covered s'.d.data s'.owns := by
  cases op with
  | append v =>
    simp only [rdCall, rdAppend] at e
    cases e1 : dcAppend low s.d v with
    | error _ => rw [e1, error_bind] at e; cases e
    | ok d =>
      rw [e1, ok_bind] at e
      cases e
      intro x
      have h1 := append_count e1 x
      have h2 := h x
      simp only [incref]
      split <;> simp_all <;> omega
  | delete i =>
    simp only [rdCall, rdDelete] at e
    cases e1 : dcDelete low s.d i with
    | error _ => rw [e1, error_bind] at e; cases e
    | ok d =>
      rw [e1, ok_bind] at e
      cases e
      intro x
      have h1 := delete_count e1 x
      have h2 := h x
      dsimp only
      omega
  | modify force =>
    simp only [rdCall, rdModify] at e
    cases e1 : dcModify low force s.d with
    | error _ => rw [e1, error_bind] at e; cases e
    | ok d =>
      rw [e1, ok_bind] at e
      cases e
      intro x
      have h1 := modify_count e1 x
      have h2 := h x
      dsimp only
      omega
  | set i v =>
    simp only [rdCall, rdSet] at e
    cases e1 : caSet inst ⟨s.d.data, s.owns⟩ i v with
    | error _ => rw [e1, error_bind] at e; cases e
    | ok a =>
      rw [e1, ok_bind] at e
      cases e
      obtain ⟨c, hc, ho⟩ := covered_off.mp h
      exact covered_off.mpr ⟨c, hc, off_set ho e1⟩
  | fill v =>
    simp only [rdCall, rdFill] at e
    cases e1 : caFill inst ⟨s.d.data, s.owns⟩ v with
    | error _ => rw [e1, error_bind] at e; cases e
    | ok a =>
      rw [e1, ok_bind] at e
      cases e
      obtain ⟨c, hc, ho⟩ := covered_off.mp h
      rw [caFill] at e1
      split at e1
      · cases e1
      · exact covered_off.mpr ⟨c, hc, off_fill v _ _ _ _ ho e1⟩

theorem covered_run {low : Nat → Nat → Bool} {inst : Option α → Bool} (ops : List (DynOp α)) {s s' : RDyn α} (h : Covered s.d.data s.owns)
    (e : rdRun low inst ops s = some s') : Covered s'.d.data s'.owns := by
  induction ops generalizing s with
  | nil => cases e; exact h
  | cons op ops ih =>
    rw [rdRun] at e
    cases e1 : rdCall low inst s op with
    | ok s1 => rw [e1] at e; exact ih (covered_call h e1) e
    | error er =>
      rw [e1] at e
      cases er <;> first | exact ih h e | cases e

/-- **C134**, dynamic arrays: made from elements or from a size without `init`, a dynamic array has after every history, as long as no call is undefined, a
reference for each of its cells; no object is freed that is still referred to. -/
theorem C134_dynamic_partial (low : Nat → Nat → Bool) (inst : Option α → Bool) {a : RArr α} (h : Made inst a) (ops : List (DynOp α)) {s : RDyn α}
    (e : rdRun low inst ops ⟨dcOfList a.data, a.owns⟩ = some s) : Alive s.d.data s.owns := by
  refine Covered.alive (covered_run ops ?_ e)
  intro x
  have := h.off x
  dsimp only [dcOfList] at this ⊢
  omega

/-! A stack never gives a reference back. -/

/-- The stack after a history of pushes and pops; `none` if a call has undefined behaviour. Popping an empty stack changes nothing. -/
def rsRun (low : Nat → Nat → Bool) : List (Option (Option α)) → RDyn α → Option (RDyn α)
  | [], s => some s
  | some x :: ops, s => match rsPush low s x with
    | .ok s' => rsRun low ops s'
    | .error _ => none
  | none :: ops, s => match rsPop low s with
    | .ok (_, s') => rsRun low ops s'
    | .error .indexError => rsRun low ops s
    | .error _ => none

/-- **C134**, stacks: a stack still owns a reference for every push of an object, popped or not; an object that was ever pushed is never freed. -/
theorem C134_stack_keeps (low : Nat → Nat → Bool) (ops : List (Option (Option α))) {s s' : RDyn α} (e : rsRun low ops s = some s') (x : α) :
    s.owns x + (ops.count (some (some x)) : Int) ≤ s'.owns x := by
  induction ops generalizing s with
  | nil => cases e; simp
  | cons op ops ih =>
    cases op with
    | some v =>
      rw [rsRun] at e
      cases e1 : rsPush low s v with
      | error _ => rw [e1] at e; cases e
      | ok s1 =>
        rw [e1] at e
        have h1 := ih e
        have h2 : s.owns x + (if v = some x then 1 else 0) ≤ s1.owns x := by
          simp only [rsPush, rdAppend] at e1
          cases e2 : dcAppend low (if csIsEmpty s.d = true then ⟨s.d, incref s.owns v⟩ else s : RDyn α).d v with
          | error _ => rw [e2, error_bind] at e1; cases e1
          | ok d =>
            rw [e2, ok_bind] at e1
            cases e1
            by_cases hv : v = some x <;> by_cases he : csIsEmpty s.d = true <;> simp [incref, hv, he]
            omega
        rw [List.count_cons]
        by_cases hv : v = some x <;> simp [hv] at h2 ⊢ <;> omega
    | none =>
      rw [rsRun] at e
      rw [List.count_cons]
      cases e1 : rsPop low s with
      | error er =>
        rw [e1] at e
        cases er <;> first | (have := ih e; simpa using this) | cases e
      | ok p =>
        rw [e1] at e
        have h1 := ih e
        have h2 : p.2.owns = s.owns := by
          simp only [rsPop] at e1
          cases e2 : csPop low s.d with
          | error _ => rw [e2, error_bind] at e1; cases e1
          | ok q =>
            rw [e2, ok_bind] at e1
            cases e1
            rfl
        rw [h2] at h1
        simpa using h1

/-- Push 7, pop it: the stack is empty and holds two references to 7. -/
theorem C134_stack_leaks : ∃ s, rsRun (fun num size => decide (4 * num < size)) [some (some 7), none] (⟨dcOfList [], fun _ => 0⟩ : RDyn Nat) = some s ∧
    (∀ x, some x ∉ s.d.data) ∧ s.owns 7 = 2 := by
  refine ⟨_, rfl, ?_, rfl⟩
  intro x
  simp [dcOfList]

/-- A history on a dynamic array that overwrites a cell through `__setitem__`, deletes and contracts. -/
example : (rdRun (fun num size => decide (4 * num < size)) (fun _ => true) [.append (some 5), .set 0 (some 6), .append (some 5), .delete 0, .delete 1]
    (⟨dcOfList [some 1, some 2], (caOfList (fun _ : Option Nat => true) [some 1, some 2]).1⟩ : RDyn Nat)).isSome = true := rfl
end Props
