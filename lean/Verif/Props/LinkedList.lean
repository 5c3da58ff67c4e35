import Verif.Lemmas.LinkedListWalk
import Verif.Spec
import Verif.Lemmas.Trace

set_option linter.unusedSimpArgs false
/-!
# C39-C42: the linked lists are lists

A client makes any sequence of calls on one list object. The specification of each call is given on a plain list.
-/
namespace Props
open Py Model Spec

/-- The calls a client can make. `insertAfter i x` is `lst.insert_after(lst[i], key, data)`; `backward` follows `prev` from `tail`
until `None` or `tail`; `ends` reads `tail.next` and `head.prev`. -/
inductive LOp (κ δ : Type) where
  | insertAt (i : Int) (x : κ × δ)
  | appendleft (x : κ × δ)
  | append (x : κ × δ)
  | insertAfter (i : Int) (x : κ × δ)
  | insertBefore (i : Int) (x : κ × δ)
  | extract (i : Int)
  | popleft
  | popright
  | get (i : Int)
  | search (k : κ)
  | str
  | len
  | isEmpty
  | backward
  | ends

/-- What the client sees: nodes are shown by their key and data. -/
inductive LOut (κ δ : Type) where
  | done
  | node (x : κ × δ)
  | nothing
  | items (l : List (κ × δ))
  | num (n : Nat)
  | flag (b : Bool)
  | two (a b : Option (κ × δ))
  | raised (e : PyErr)
  deriving DecidableEq

variable {κ δ : Type}

/-! ## Specification, on lists -/

/-- The position a Python index denotes in a sequence of length `n`. -/
def pyAt (n : Nat) (i : Int) : Option Nat :=
  if 0 ≤ i ∧ i < n then some i.toNat else if -n ≤ i ∧ i < 0 then some (n + i).toNat else none

/-- Insertion at a Python index, which may also be the length. -/
def specInsert (l : List (κ × δ)) (i : Int) (x : κ × δ) : List (κ × δ) × LOut κ δ :=
  if i > l.length then (l, .raised .indexError)
  else (l.insertIdx (if i < 0 then (l.length + i).toNat else i.toNat) x, .done)

/-- Removal at a Python index. -/
def specExtract (l : List (κ × δ)) (i : Int) : List (κ × δ) × LOut κ δ :=
  if l = [] then (l, .raised .valueError)
  else match pyAt l.length i with
    | none => (l, .raised .indexError)
    | some k => (l.eraseIdx k, match l[k]? with | some x => .node x | none => .nothing)

/-- Each call on a plain list; `circ` circular, `dbl` doubly linked. -/
def listSpec [DecidableEq κ] (circ dbl : Bool) (l : List (κ × δ)) : LOp κ δ → List (κ × δ) × LOut κ δ
  | .insertAt i x => specInsert l i x
  | .appendleft x => (x :: l, .done)
  | .append x => (l ++ [x], .done)
  | .insertAfter i x => match pyAt l.length i with
    | none => (l, .raised .indexError)
    | some k => (l.insertIdx (k + 1) x, .done)
  | .insertBefore i x => match pyAt l.length i with
    | none => (l, .raised .indexError)
    | some k => if dbl then (l.insertIdx k x, .done) else (l, .raised .notImplemented)
  | .extract i => specExtract l i
  | .popleft => match l with
    | [] => (l, .raised .valueError)
    | x :: l => (l, .node x)
  | .popright => match l.getLast? with
    | none => (l, .raised .valueError)
    | some x => (l.dropLast, .node x)
  | .get i => (l, match pyAt l.length i with
    | none => .raised .indexError
    | some k => match l[k]? with | some x => .node x | none => .nothing)
  | .search key => (l, match l.find? (fun x => x.1 = key) with | some x => .node x | none => .nothing)
  | .str => (l, .items l)
  | .len => (l, .num l.length)
  | .isEmpty => (l, .flag l.isEmpty)
  | .backward => (l, if dbl then .items l.reverse else .raised .attributeError)
  | .ends => (l, .two (if circ then l.head? else none) (if circ && dbl then l.getLast? else none))

/-- The indices the documentation allows: Python indexing, from `-len`. -/
def Legal (l : List (κ × δ)) : LOp κ δ → Prop
  | .insertAt i _ => -(l.length : Int) ≤ i ∨ (l = [] ∧ i = -1)
  | .extract i => l = [] ∨ -(l.length : Int) ≤ i
  | .insertAfter i _ | .insertBefore i _ | .get i => -(l.length : Int) ≤ i
  | _ => True

/-- On a circular list, also: the first position is not addressed as `-len` in `insert_at` and (unless it is the only one) `extract`. -/
def LegalRing (l : List (κ × δ)) : LOp κ δ → Prop
  | .insertAt i _ => -(l.length : Int) < i ∨ (l = [] ∧ i = -1) ∨ (l = [] ∧ i = 0)
  | .extract i => l = [] ∨ -(l.length : Int) < i ∨ (l.length = 1 ∧ i = -1)
  | .insertAfter i _ | .insertBefore i _ | .get i => -(l.length : Int) ≤ i
  | _ => True

/-- Calls that do not take the first of two or more nodes out of the list. -/
def KeepsFirst (l : List (κ × δ)) : LOp κ δ → Prop
  | .extract i => l.length < 2 ∨ i ≠ 0
  | .popleft => l.length < 2
  | _ => True

/-- Calls that do not look at `head.prev`. -/
def NotHeadPrev (l : List (κ × δ)) : LOp κ δ → Prop
  | .insertBefore i _ => pyAt l.length i ≠ some 0
  | .backward | .ends => False
  | _ => True

/-- Every call of the history satisfies `P` in the state of the list at that moment. -/
def Along [DecidableEq κ] (circ dbl : Bool) (P : List (κ × δ) → LOp κ δ → Prop) : List (κ × δ) → List (LOp κ δ) → Prop
  | _, [] => True
  | l, op :: ops => P l op ∧ Along circ dbl P (listSpec circ dbl l op).1 ops

/-! ## The objects -/

/-- The outcome of a method that returns nothing. -/
def wrapUnit (s : LL κ δ) : PyM (LL κ δ) → LL κ δ × LOut κ δ
  | .ok s' => (s', .done)
  | .error e => (s, .raised e)

/-- The outcome of a method that returns a node. -/
def wrapNode (s : LL κ δ) : PyM (LL κ δ × Option Nat) → LL κ δ × LOut κ δ
  | .ok (s', some p) => (s', match s'.val p with | some x => .node x | none => .nothing)
  | .ok (s', none) => (s', .nothing)
  | .error e => (s, .raised e)

/-- The contents of the node behind an attribute that may be `None`. -/
def look (s : LL κ δ) (p : Option Nat) : Option (κ × δ) := p.bind s.val

/-- One call on a list object of class `c`. -/
def llStep [DecidableEq κ] (c : LLClass κ δ) (dbl : Bool) (s : LL κ δ) : LOp κ δ → LL κ δ × LOut κ δ
  | .insertAt i x => wrapUnit s (c.insertAt s i x)
  | .appendleft x => wrapUnit s (c.appendleft s x)
  | .append x => wrapUnit s (c.append s x)
  | .insertAfter i x => wrapUnit s (do let p ← llGet s i; let p ← deref p; c.insertAfter s p x)
  | .insertBefore i x => wrapUnit s (do let p ← llGet s i; let p ← deref p; c.insertBefore s p x)
  | .extract i => wrapNode s (do let r ← c.extract s i; .ok (r.1, some r.2))
  | .popleft => wrapNode s (do let r ← c.popleft s; .ok (r.1, some r.2))
  | .popright => wrapNode s (do let r ← c.popright s; .ok (r.1, some r.2))
  | .get i => wrapNode s (do let p ← llGet s i; .ok (s, p))
  | .search k => wrapNode s (do let p ← llSearch s k; .ok (s, p))
  | .str => match llStr s with
    | .ok l => (s, .items l)
    | .error e => (s, .raised e)
  | .len => (s, .num s.size)
  | .isEmpty => (s, .flag (s.size == 0))
  | .backward => if dbl then match llBackward s with
      | .ok l => (s, .items l)
      | .error e => (s, .raised e)
    else (s, .raised .attributeError)
  | .ends => (s, .two (look s (s.tail.bind s.next)) (if dbl then look s (s.head.bind s.prev) else none))

/-! ## Proof -/

/-- What the simulation needs to know about a class: `P` is the condition on the calls. -/
structure ClassOk (circ dbl hp : Bool) (c : LLClass κ δ) (P : List (κ × δ) → LOp κ δ → Prop) : Prop where
  insertAt : ∀ (s : LL κ δ) ids l i x k, Rep circ dbl hp s ids l → P l (.insertAt i x) → InsPos l.length i k →
    ∃ s' ids', c.insertAt s i x = .ok s' ∧ Rep circ dbl hp s' ids' (l.insertIdx k x)
  insertFar : ∀ (s : LL κ δ) (i : Int) x, s.size < i → c.insertAt s i x = .error .indexError
  insertAfter : ∀ (s : LL κ δ) (ids : List Nat) l (k p : Nat) x, Rep circ dbl hp s ids l → ids[k]? = some p →
    ∃ s' ids', c.insertAfter s p x = .ok s' ∧ Rep circ dbl hp s' ids' (l.insertIdx (k + 1) x)
  insertBefore : dbl = true → ∀ (s : LL κ δ) (ids : List Nat) l i (k p : Nat) x, Rep circ dbl hp s ids l → P l (.insertBefore i x) →
    pyAt l.length i = some k → ids[k]? = some p → ∃ s' ids', c.insertBefore s p x = .ok s' ∧ Rep circ dbl hp s' ids' (l.insertIdx k x)
  insertBefore' : dbl = false → ∀ s p x, c.insertBefore s p x = .error .notImplemented
  extract : ∀ (s : LL κ δ) (ids : List Nat) l i (k p : Nat), Rep circ dbl hp s ids l → P l (.extract i) → ExtPos l.length i k → ids[k]? = some p →
    ∃ s' ids', c.extract s i = .ok (s', p) ∧ s'.val = s.val ∧ Rep circ dbl hp s' ids' (l.eraseIdx k)
  extractFar : ∀ (s : LL κ δ) (i : Int), 0 < s.size → s.size ≤ i → c.extract s i = .error .indexError
  extractNone : ∀ (s : LL κ δ) i, s.size = 0 → c.extract s i = .error .valueError
  left : ∀ l x, P l (.appendleft x) → P l (.insertAt 0 x)
  right : ∀ l x, P l (.append x) → P l (.insertAt l.length x)
  popleft : ∀ l, P l .popleft → P l (.extract 0)
  popright : ∀ l, P l .popright → P l (.extract (-1))
  legal : ∀ l op, P l op → Legal l op
  backward : ∀ l, P l .backward → hp = true
  ends : ∀ l, P l .ends → hp = true

theorem pyAt_ext {n : Nat} {i : Int} {k : Nat} (h : pyAt n i = some k) : ExtPos n i k := by
  unfold pyAt at h
  split at h
  · injection h; constructor <;> omega
  · split at h
    · injection h; constructor <;> omega
    · cases h

theorem pyAt_none {n : Nat} {i : Int} (h : pyAt n i = none) (hl : -(n : Int) ≤ i) : (n : Int) ≤ i := by
  unfold pyAt at h
  split at h
  · cases h
  · split at h
    · cases h
    · omega

theorem sim_step [DecidableEq κ] {circ dbl hp : Bool} {c : LLClass κ δ} {P : List (κ × δ) → LOp κ δ → Prop}
    (C : ClassOk circ dbl hp c P) {s : LL κ δ} {ids : List Nat} {l : List (κ × δ)} (R : Rep circ dbl hp s ids l)
    (op : LOp κ δ) (hop : P l op) :
    ∃ ids', Rep circ dbl hp (llStep c dbl s op).1 ids' (listSpec circ dbl l op).1 ∧ (llStep c dbl s op).2 = (listSpec circ dbl l op).2 := by
  have hlen := R.len
  have hsz := R.size
  have hleg := C.legal l op hop
  have getFar : ∀ i : Int, (l.length : Int) ≤ i → llGet s i = .error .indexError := by
    intro i hi
    simp only [llGet]
    have hneg : ¬ i < 0 := by omega
    simp only [if_neg hneg]
    rw [if_pos (by omega)]
  have hval : ∀ (k : Nat) (p : Nat), ids[k]? = some p → ∃ x, s.val p = some x ∧ l[k]? = some x := by
    intro k p hk
    have hk' : k < l.length := by rw [← hlen]; exact (List.getElem?_eq_some_iff.1 hk).1
    exact ⟨l[k], by rw [R.vals k p hk, List.getElem?_eq_getElem hk'], List.getElem?_eq_getElem hk'⟩
  have ins : ∀ i x, P l (.insertAt i x) → ∃ ids', Rep circ dbl hp (wrapUnit s (c.insertAt s i x)).1 ids' (specInsert l i x).1 ∧
      (wrapUnit s (c.insertAt s i x)).2 = (specInsert l i x).2 := by
    intro i x hP
    have hleg := C.legal l _ hP
    simp only [Legal] at hleg
    unfold specInsert
    by_cases hfar : i > l.length
    · rw [if_pos hfar, C.insertFar s i x (by omega)]
      exact ⟨ids, R, rfl⟩
    · rw [if_neg hfar]
      obtain ⟨s', ids', e, R'⟩ := C.insertAt s ids l i x (if i < 0 then (l.length + i).toNat else i.toNat) R hP (by
        rcases hleg with h | ⟨rfl, rfl⟩
        · constructor <;> split <;> omega
        · exact ⟨by simp, Or.inr (Or.inr ⟨rfl, rfl⟩)⟩)
      rw [e]
      exact ⟨ids', R', rfl⟩
  have ext : ∀ i, P l (.extract i) → ∃ ids', Rep circ dbl hp (wrapNode s (do let r ← c.extract s i; .ok (r.1, some r.2))).1 ids' (specExtract l i).1 ∧
      (wrapNode s (do let r ← c.extract s i; .ok (r.1, some r.2))).2 = (specExtract l i).2 := by
    intro i hP
    have hleg := C.legal l _ hP
    simp only [Legal] at hleg
    unfold specExtract
    by_cases hnil : l = []
    · rw [if_pos hnil, C.extractNone s i (by rw [hsz, hnil]; rfl)]
      exact ⟨ids, R, rfl⟩
    · rw [if_neg hnil]
      have hpos : 0 < l.length := List.length_pos_iff.2 hnil
      have hleg : -(l.length : Int) ≤ i := hleg.resolve_left hnil
      cases hat : pyAt l.length i with
      | none =>
        have := pyAt_none hat hleg
        rw [C.extractFar s i (by omega) (by omega)]
        exact ⟨ids, R, rfl⟩
      | some k =>
        have hE := pyAt_ext hat
        have hk : k < ids.length := by rw [hlen]; exact hE.1
        obtain ⟨s', ids', e, hv, R'⟩ := C.extract s ids l i k _ R hP hE (List.getElem?_eq_getElem hk)
        obtain ⟨x, h1, h2⟩ := hval k _ (List.getElem?_eq_getElem hk)
        rw [e]
        refine ⟨ids', R', ?_⟩
        simp only [ok_bind, wrapNode, hv, h1, h2]
  cases op with
  | insertAt i x => exact ins i x hop
  | appendleft x =>
    have := ins 0 x (C.left l x hop)
    simp only [specInsert] at this
    rw [if_neg (by omega)] at this
    simpa [listSpec, llStep, LLClass.appendleft] using this
  | append x =>
    have := ins l.length x (C.right l x hop)
    simp only [specInsert] at this
    rw [if_neg (by omega), if_neg (by omega)] at this
    simpa [listSpec, llStep, LLClass.append, hsz] using this
  | insertAfter i x =>
    simp only [Legal] at hleg
    simp only [llStep, listSpec]
    cases hat : pyAt l.length i with
    | none =>
      rw [getFar i (pyAt_none hat hleg)]
      exact ⟨ids, R, rfl⟩
    | some k =>
      have hE := pyAt_ext hat
      have hk : k < ids.length := by rw [hlen]; exact hE.1
      obtain ⟨s', ids', e, R'⟩ := C.insertAfter s ids l k _ x R (List.getElem?_eq_getElem hk)
      rw [llGet_eq R (by rw [hlen]; exact hE), ok_bind, List.getElem?_eq_getElem hk, deref, ok_bind, e]
      exact ⟨ids', R', rfl⟩
  | insertBefore i x =>
    simp only [Legal] at hleg
    simp only [llStep, listSpec]
    cases hat : pyAt l.length i with
    | none =>
      rw [getFar i (pyAt_none hat hleg)]
      exact ⟨ids, R, rfl⟩
    | some k =>
      have hE := pyAt_ext hat
      have hk : k < ids.length := by rw [hlen]; exact hE.1
      rw [llGet_eq R (by rw [hlen]; exact hE), ok_bind, List.getElem?_eq_getElem hk, deref, ok_bind]
      cases hd : dbl with
      | false =>
        subst hd
        rw [C.insertBefore' rfl]
        exact ⟨ids, R, rfl⟩
      | true =>
        subst hd
        obtain ⟨s', ids', e, R'⟩ := C.insertBefore rfl s ids l i k _ x R hop hat (List.getElem?_eq_getElem hk)
        rw [e]
        exact ⟨ids', R', rfl⟩
  | extract i => exact ext i hop
  | popleft =>
    have := ext 0 (C.popleft l hop)
    simp only [llStep, listSpec, LLClass.popleft]
    cases l with
    | nil => simpa [specExtract] using this
    | cons x l =>
      simp [specExtract, pyAt] at this
      simpa using this
  | popright =>
    have := ext (-1) (C.popright l hop)
    simp only [llStep, listSpec, LLClass.popright]
    rcases List.eq_nil_or_concat l with rfl | ⟨l', x, rfl⟩
    · simpa [specExtract] using this
    · rw [List.concat_eq_append] at *
      have hat : pyAt (l' ++ [x]).length (-1) = some l'.length := by
        unfold pyAt
        rw [if_neg (by omega), if_pos (by simp; omega)]
        congr 1
        simp only [List.length_append, List.length_cons, List.length_nil]
        omega
      simp only [specExtract, hat, if_neg (show ¬ l' ++ [x] = [] by simp)] at this
      have he : (l' ++ [x]).eraseIdx l'.length = l' := by
        rw [List.eraseIdx_append_of_length_le (Nat.le_refl _)]; simp
      rw [he] at this
      simpa using this
  | get i =>
    simp only [Legal] at hleg
    simp only [llStep, listSpec]
    cases hat : pyAt l.length i with
    | none =>
      rw [getFar i (pyAt_none hat hleg)]
      exact ⟨ids, R, rfl⟩
    | some k =>
      have hE := pyAt_ext hat
      have hk : k < ids.length := by rw [hlen]; exact hE.1
      obtain ⟨x, h1, h2⟩ := hval k _ (List.getElem?_eq_getElem hk)
      rw [llGet_eq R (by rw [hlen]; exact hE), ok_bind, List.getElem?_eq_getElem hk]
      refine ⟨ids, R, ?_⟩
      simp only [wrapNode, h1, h2]
  | search key =>
    obtain ⟨p, e, h⟩ := llSearch_eq R key
    simp only [llStep, listSpec, e, ok_bind]
    rcases h with ⟨rfl, h⟩ | ⟨i, x, rfl, hv, h⟩
    · rw [h]; exact ⟨ids, R, rfl⟩
    · rw [h]
      refine ⟨ids, R, ?_⟩
      simp only [wrapNode, hv]
  | str =>
    simp only [llStep, listSpec, llStr_eq R]
    exact ⟨ids, R, trivial⟩
  | len =>
    simp only [llStep, listSpec, hsz]
    exact ⟨ids, R, trivial⟩
  | isEmpty =>
    simp only [llStep, listSpec, hsz]
    exact ⟨ids, R, by cases l <;> simp⟩
  | backward =>
    have := C.backward l hop
    subst this
    simp only [llStep, listSpec]
    cases dbl with
    | false => exact ⟨ids, R, rfl⟩
    | true =>
      simp only [llBackward_eq R, if_true]
      exact ⟨ids, R, trivial⟩
  | ends =>
    have := C.ends l hop
    subst this
    simp only [llStep, listSpec]
    refine ⟨ids, R, ?_⟩
    have hh := R.head
    have ht := R.tail
    by_cases h0 : l = []
    · subst h0
      have : ids = [] := List.length_eq_zero_iff.1 hlen
      subst this
      simp at hh ht
      rw [hh, ht]
      simp [look]
    · have hpos : 0 < l.length := List.length_pos_iff.2 h0
      have i0 : 0 < ids.length := by omega
      have i1 : ids.length - 1 < ids.length := by omega
      obtain ⟨x0, v0, w0⟩ := hval 0 _ (List.getElem?_eq_getElem i0)
      obtain ⟨x1, v1, w1⟩ := hval _ _ (List.getElem?_eq_getElem i1)
      have n1 := R.nexts _ _ (List.getElem?_eq_getElem i1)
      rw [List.getElem?_eq_getElem i0] at hh
      rw [List.getElem?_eq_getElem i1] at ht
      rw [nx, if_neg (by omega), List.getElem?_eq_getElem i0] at n1
      have g0 : l.head? = some x0 := by rw [List.head?_eq_getElem?, w0]
      have g1 : l.getLast? = some x1 := by rw [List.getLast?_eq_getElem?, ← hlen, w1]
      rw [hh, ht]
      simp only [Option.bind_some, n1]
      congr 1
      · cases circ <;> simp [look, v0, g0]
      · cases dbl with
        | false => simp
        | true =>
          have p0 := R.prevs rfl _ _ (fun _ => rfl) (List.getElem?_eq_getElem i0)
          rw [pv, if_pos rfl, List.getElem?_eq_getElem i1] at p0
          simp only [p0]
          cases circ <;> simp [look, v1, g1]

theorem sim [DecidableEq κ] {circ dbl hp : Bool} {c : LLClass κ δ} {P : List (κ × δ) → LOp κ δ → Prop}
    (C : ClassOk circ dbl hp c P) : ∀ (ops : List (LOp κ δ)) (s : LL κ δ) (ids : List Nat) (l : List (κ × δ)),
    Rep circ dbl hp s ids l → Along circ dbl P l ops → trace (llStep c dbl) s ops = trace (listSpec circ dbl) l ops := by
  intro ops
  induction ops with
  | nil => intro s ids l _ _; rfl
  | cons op ops ih =>
    intro s ids l R ⟨h1, h2⟩
    obtain ⟨ids', R', e⟩ := sim_step C R op h1
    simp only [trace, e, ih _ _ _ R' h2]

theorem far_insert (s : LL κ δ) (i : Int) (x : κ × δ) (h : s.size < i) :
    sllInsertAt s i x = .error .indexError ∧ dllInsertAt s i x = .error .indexError := by
  have h1 : ¬ (s.size = 0 ∧ (i = 0 ∨ i = -1)) := by omega
  have h2 : ¬ i < 0 := by omega
  constructor
  · simp only [sllInsertAt, if_neg h1, if_neg h2]; rw [if_pos (by omega)]
  · simp only [dllInsertAt, if_neg h1, if_neg h2]; rw [if_pos (by omega)]

theorem far_extract (s : LL κ δ) (i : Int) (h0 : 0 < s.size) (h : s.size ≤ i) :
    sllExtract s i = .error .indexError ∧ dllExtract s i = .error .indexError := by
  have h1 : ¬ s.size = 0 := by omega
  have h2 : ¬ i < 0 := by omega
  constructor
  · simp only [sllExtract, if_neg h1, if_neg h2]; rw [if_pos (by omega)]
  · simp only [dllExtract, if_neg h1, if_neg h2]; rw [if_pos (by omega)]

theorem none_extract (s : LL κ δ) (i : Int) (h0 : s.size = 0) :
    sllExtract s i = .error .valueError ∧ dllExtract s i = .error .valueError := by
  constructor
  · simp only [sllExtract, if_pos h0]
  · simp only [dllExtract, if_pos h0]

theorem sll_ok : ClassOk false false true (sllClass : LLClass κ δ) Legal where
  insertAt := by
    intro s ids l i x k R _ hk
    rw [← R.len] at hk
    have e := sllInsertAt_eq R hk x
    rw [insRes_linear false s ids k x hk.1] at e
    exact ⟨_, _, e, R.ins hk.1 x⟩
  insertFar := fun s i x h => (far_insert s i x h).1
  insertAfter := by
    intro s ids l k p x R hp
    exact ⟨_, _, sllInsertAfter_eq R hp x rfl, R.ins (List.getElem?_eq_some_iff.1 hp).1 x⟩
  insertBefore := by intro h; cases h
  insertBefore' := fun _ _ _ _ => rfl
  extract := by
    intro s ids l i k p R _ hk hp
    rw [← R.len] at hk
    have e := sllExtract_eq R hk hp
    rw [extRes_linear false s ids k hk.1] at e
    exact ⟨_, _, e, rfl, R.ext hk.1 id (by intro _ h; cases h)⟩
  extractFar := fun s i h0 h => (far_extract s i h0 h).1
  extractNone := fun s i h => (none_extract s i h).1
  left := by intro l x _; left; omega
  right := by intro l x _; left; omega
  popleft := by intro l _; right; omega
  popright := by
    intro l _
    cases l with
    | nil => left; rfl
    | cons x l => right; simp; omega
  legal := fun _ _ h => h
  backward := fun _ _ => rfl
  ends := fun _ _ => rfl

theorem dll_ok : ClassOk false true true (dllClass : LLClass κ δ) Legal where
  insertAt := by
    intro s ids l i x k R _ hk
    rw [← R.len] at hk
    have e := dllInsertAt_eq R hk x
    rw [insRes_linear true s ids k x hk.1] at e
    exact ⟨_, _, e, R.ins hk.1 x⟩
  insertFar := fun s i x h => (far_insert s i x h).2
  insertAfter := by
    intro s ids l k p x R hp
    exact ⟨_, _, dllInsertAfter_eq R hp x, R.ins (List.getElem?_eq_some_iff.1 hp).1 x⟩
  insertBefore := by
    intro _ s ids l i k p x R _ _ hp
    exact ⟨_, _, dllInsertBefore_eq R hp x, R.ins (Nat.le_of_lt (List.getElem?_eq_some_iff.1 hp).1) x⟩
  insertBefore' := by intro h; cases h
  extract := by
    intro s ids l i k p R _ hk hp
    rw [← R.len] at hk
    have e := dllExtract_eq R hk hp (Or.inl rfl)
    rw [extRes_linear true s ids k hk.1] at e
    exact ⟨_, _, e, rfl, R.ext hk.1 id (by intro _ h; cases h)⟩
  extractFar := fun s i h0 h => (far_extract s i h0 h).2
  extractNone := fun s i h => (none_extract s i h).2
  left := by intro l x _; left; omega
  right := by intro l x _; left; omega
  popleft := by intro l _; right; omega
  popright := by
    intro l _
    cases l with
    | nil => left; rfl
    | cons x l => right; simp; omega
  legal := fun _ _ h => h
  backward := fun _ _ => rfl
  ends := fun _ _ => rfl

theorem LegalRing.legal (l : List (κ × δ)) (op : LOp κ δ) (h : LegalRing l op) : Legal l op := by
  cases op <;> simp only [LegalRing, Legal] at * <;> first | trivial | skip
  · rcases h with h | h | ⟨h1, h2⟩
    · left; omega
    · right; exact h
    · left; omega
  · rcases h with h | h | ⟨h1, h2⟩
    · left; exact h
    · right; omega
    · right; omega
  all_goals exact h

theorem LegalRing.ins {l : List (κ × δ)} {i : Int} {x : κ × δ} {k : Nat} (h : LegalRing l (.insertAt i x)) (hk : InsPos l.length i k) :
    i < 0 → k = 0 → l.length = 0 := by
  intro h1 h2
  obtain ⟨h3, h4⟩ := hk
  simp only [LegalRing] at h
  rcases h with h | ⟨h, _⟩ | ⟨h, _⟩
  · omega
  · simp [h]
  · simp [h]

theorem LegalRing.ext {l : List (κ × δ)} {i : Int} {k : Nat} (h : LegalRing l (.extract i)) (hk : ExtPos l.length i k) :
    i < 0 → k = 0 → l.length = 1 := by
  intro h1 h2
  obtain ⟨h3, h4⟩ := hk
  simp only [LegalRing] at h
  rcases h with h | h | ⟨h, _⟩
  · simp [h] at h3
  · omega
  · exact h

theorem ring_left (l : List (κ × δ)) (x : κ × δ) : LegalRing l (.insertAt 0 x) := by
  simp only [LegalRing]
  cases l with
  | nil => simp
  | cons y l => left; simp

theorem ring_right (l : List (κ × δ)) (x : κ × δ) : LegalRing l (.insertAt l.length x) := by
  simp only [LegalRing]
  cases l with
  | nil => simp
  | cons y l => left; simp; omega

theorem ring_popleft (l : List (κ × δ)) : LegalRing l (.extract 0) := by
  simp only [LegalRing]
  cases l with
  | nil => left; rfl
  | cons y l => right; left; simp

theorem ring_popright (l : List (κ × δ)) : LegalRing l (.extract (-1)) := by
  simp only [LegalRing]
  cases l with
  | nil => left; rfl
  | cons y l =>
    right
    by_cases h : (y :: l).length = 1
    · right; exact ⟨h, trivial⟩
    · left; simp at h ⊢; have := List.length_pos_iff.2 h; omega

theorem scll_ok : ClassOk true false true (scllClass : LLClass κ δ) LegalRing where
  insertAt := by
    intro s ids l i x k R hP hk
    have hc := LegalRing.ins hP hk
    rw [← R.len] at hk hc
    exact ⟨_, _, scllInsertAt_eq R hk hc x, R.ins hk.1 x⟩
  insertFar := fun s i x h => by
    show scllInsertAt s i x = _
    rw [scllInsertAt, (far_insert s i x h).1]; rfl
  insertAfter := by
    intro s ids l k p x R hp
    exact ⟨_, _, scllInsertAfter_eq R hp x, R.ins (List.getElem?_eq_some_iff.1 hp).1 x⟩
  insertBefore := by intro h; cases h
  insertBefore' := fun _ _ _ _ => rfl
  extract := by
    intro s ids l i k p R hP hk hp
    have hc := LegalRing.ext hP hk
    rw [← R.len] at hk hc
    exact ⟨_, _, scllExtract_eq R hk hp hc, rfl, R.ext hk.1 id (by intro _ _ h; cases h)⟩
  extractFar := fun s i h0 h => by
    show scllExtract s i = _
    rw [scllExtract, (far_extract s i h0 h).1]; rfl
  extractNone := fun s i h => by
    show scllExtract s i = _
    rw [scllExtract, (none_extract s i h).1]; rfl
  left := fun l x _ => ring_left l x
  right := fun l x _ => ring_right l x
  popleft := fun l _ => ring_popleft l
  popright := fun l _ => ring_popright l
  legal := LegalRing.legal
  backward := fun _ _ => rfl
  ends := fun _ _ => rfl

/-- The circular doubly linked list, for the two kinds of histories described at C42. -/
theorem dcll_ok (hp : Bool) (P : List (κ × δ) → LOp κ δ → Prop) (hP : ∀ l op, P l op → LegalRing l op)
    (h1 : hp = true → ∀ l op, P l op ↔ LegalRing l op ∧ KeepsFirst l op)
    (h2 : hp = false → ∀ l op, P l op ↔ LegalRing l op ∧ NotHeadPrev l op) :
    ClassOk true true hp (dcllClass : LLClass κ δ) P where
  insertAt := by
    intro s ids l i x k R h hk
    have hc := LegalRing.ins (hP _ _ h) hk
    rw [← R.len] at hk hc
    obtain ⟨s', e, R', _, _⟩ := dcllInsertAt_eq R hk hc x
    exact ⟨s', _, e, R'⟩
  insertFar := fun s i x h => by
    show dcllInsertAt s i x = _
    rw [dcllInsertAt, (far_insert s i x h).2]; rfl
  insertAfter := by
    intro s ids l k p x R hp
    exact ⟨_, _, dcllInsertAfter_eq R hp x, R.ins (List.getElem?_eq_some_iff.1 hp).1 x⟩
  insertBefore := by
    intro _ s ids l i k p x R h hat hp'
    refine ⟨_, _, dcllInsertBefore_eq R hp' x ?_, R.ins (Nat.le_of_lt (List.getElem?_eq_some_iff.1 hp').1) x⟩
    intro hk
    cases hp with
    | true => rfl
    | false =>
      have := ((h2 rfl _ _).1 h).2
      simp only [NotHeadPrev] at this
      rw [hat, hk] at this
      exact absurd rfl this
  insertBefore' := by intro h; cases h
  extract := by
    intro s ids l i k p R h hk hp'
    have hc := LegalRing.ext (hP _ _ h) hk
    have hlen := R.len
    have hk2 := hk
    rw [← R.len] at hk2 hc
    refine ⟨_, _, dcllExtract_eq R hk2 hp' hc, rfl, R.ext hk2.1 id ?_⟩
    intro hh _ _ hk0
    have := ((h1 hh _ _).1 h).2
    simp only [KeepsFirst] at this
    obtain ⟨h3, h4⟩ := hk
    rcases this with h5 | h5
    · omega
    · exact hc (by omega) hk0
  extractFar := fun s i h0 h => by
    show dcllExtract s i = _
    rw [dcllExtract, (far_extract s i h0 h).2]; rfl
  extractNone := fun s i h => by
    show dcllExtract s i = _
    rw [dcllExtract, (none_extract s i h).2]; rfl
  left := fun l x _ => by
    cases hp with
    | true => exact (h1 rfl _ _).2 ⟨ring_left l x, trivial⟩
    | false => exact (h2 rfl _ _).2 ⟨ring_left l x, trivial⟩
  right := fun l x _ => by
    cases hp with
    | true => exact (h1 rfl _ _).2 ⟨ring_right l x, trivial⟩
    | false => exact (h2 rfl _ _).2 ⟨ring_right l x, trivial⟩
  popleft := fun l h => by
    cases hp with
    | true => exact (h1 rfl _ _).2 ⟨ring_popleft l, Or.inl ((h1 rfl _ _).1 h).2⟩
    | false => exact (h2 rfl _ _).2 ⟨ring_popleft l, trivial⟩
  popright := fun l _ => by
    cases hp with
    | true => exact (h1 rfl _ _).2 ⟨ring_popright l, Or.inr (by omega)⟩
    | false => exact (h2 rfl _ _).2 ⟨ring_popright l, trivial⟩
  legal := fun l op h => LegalRing.legal l op (hP l op h)
  backward := fun l h => by
    cases hp with
    | true => rfl
    | false => exact ((h2 rfl _ _).1 h).2.elim
  ends := fun l h => by
    cases hp with
    | true => rfl
    | false => exact ((h2 rfl _ _).1 h).2.elim

/-! ## The properties -/

/-- C39: through every history of calls, a singly linked list answers as a plain list. -/
theorem C39_singly_linked_list [DecidableEq κ] (ops : List (LOp κ δ)) (h : Along false false Legal [] ops) :
    trace (llStep sllClass false) LL.new ops = trace (listSpec false false) [] ops :=
  sim sll_ok ops _ [] [] (Rep.new _ _ _) h

/-- C40: through every history of calls, a doubly linked list answers as a plain list, also when it is walked backwards. -/
theorem C40_doubly_linked_list [DecidableEq κ] (ops : List (LOp κ δ)) (h : Along false true Legal [] ops) :
    trace (llStep dllClass true) LL.new ops = trace (listSpec false true) [] ops :=
  sim dll_ok ops _ [] [] (Rep.new _ _ _) h

/-- C41, the part that holds: `insert_at` and `extract` are not given the index `-len`. -/
theorem C41_circular_list_partial [DecidableEq κ] (ops : List (LOp κ δ)) (h : Along true false LegalRing [] ops) :
    trace (llStep scllClass false) LL.new ops = trace (listSpec true false) [] ops :=
  sim scll_ok ops _ [] [] (Rep.new _ _ _) h

/-- C42, the part that holds, with the ring closed in both directions: as for C41, and the first of two or more nodes is not taken out. -/
theorem C42_both_directions_partial [DecidableEq κ] (ops : List (LOp κ δ))
    (h : Along true true (fun l op => LegalRing l op ∧ KeepsFirst l op) [] ops) :
    trace (llStep dcllClass true) LL.new ops = trace (listSpec true true) [] ops :=
  sim (dcll_ok true _ (fun _ _ h => h.1) (fun _ _ _ => Iff.rfl) (fun h => by cases h)) ops _ [] [] (Rep.new _ _ _) h

/-- C42, the part that holds with all removals: as for C41, and `head.prev` is not used (no walk backwards, no `insert_before` the
first node). -/
theorem C42_forward_partial [DecidableEq κ] (ops : List (LOp κ δ))
    (h : Along true true (fun l op => LegalRing l op ∧ NotHeadPrev l op) [] ops) :
    trace (llStep dcllClass true) LL.new ops = trace (listSpec true true) [] ops :=
  sim (dcll_ok false _ (fun _ _ h => h.1) (fun h => by cases h) (fun _ _ _ => Iff.rfl)) ops _ [] [] (Rep.new _ _ _) h

/-- The full statement of C41. -/
def C41_full : Prop := ∀ ops : List (LOp Nat Unit), Along true false Legal [] ops →
  trace (llStep scllClass false) LL.new ops = trace (listSpec true false) [] ops

/-- The full statement of C42. -/
def C42_full : Prop := ∀ ops : List (LOp Nat Unit), Along true true Legal [] ops →
  trace (llStep dcllClass true) LL.new ops = trace (listSpec true true) [] ops

/-- After `insert_at(-len, …)` the tail of the ring still points to the old first node, and a search for a missing key never ends. -/
theorem C41_search_diverges : trace (llStep scllClass false) LL.new
      [.append (1, ()), .append (2, ()), .insertAt (-2) (0, ()), .search 7] =
    [.done, .done, .done, (.raised .outOfFuel : LOut Nat Unit)] := by decide

theorem C41_full_false : ¬ C41_full := by
  intro h
  have := h [.append (1, ()), .append (2, ()), .insertAt (-2) (0, ()), .search 7] (by simp [Along, Legal, listSpec, specInsert])
  revert this
  decide

/-- After `extract(0)` the first node has no predecessor any more; with `insert_before` the first node the ring breaks. -/
theorem C42_ring_open : trace (llStep dcllClass true) LL.new
      [.append (1, ()), .append (2, ()), .append (3, ()), .popleft, .ends, .insertBefore 0 (0, ()), .search 7] =
    [.done, .done, .done, .node (1, ()), .two (some (2, ())) none, .done, (.raised .outOfFuel : LOut Nat Unit)] := by decide

theorem C42_full_false : ¬ C42_full := by
  intro h
  have := h [.append (1, ()), .append (2, ()), .append (3, ()), .popleft, .ends] (by simp [Along, Legal, listSpec, specInsert])
  revert this
  decide

/-- Outside the documented indices (`i < -len`) the lists raise `AttributeError`. -/
theorem C39_below_range : trace (llStep sllClass false) LL.new
      [.append (1, ()), .append (2, ()), .insertAt (-3) (0, ())] =
    [.done, .done, (.raised .attributeError : LOut Nat Unit)] := by decide

/-! The hypotheses are met by histories that insert, remove, search and walk. -/

example : Along false false Legal []
    ([.append (1, 10), .append (2, 20), .insertAt (-2) (0, 0), .insertAfter 1 (5, 50), .extract (-1), .search 5, .get (-3), .str, .popright] :
      List (LOp Nat Nat)) := by
  simp [Along, Legal, listSpec, specInsert, specExtract, pyAt]

example : trace (listSpec false false) []
    ([.append (1, 10), .append (2, 20), .insertAt (-2) (0, 0), .insertAfter 1 (5, 50), .extract (-1), .search 5, .get (-3), .str, .popright] :
      List (LOp Nat Nat)) = [.done, .done, .done, .done, .node (2, 20), .node (5, 50), .node (0, 0), .items [(0, 0), (1, 10), (5, 50)], .node (5, 50)] := by
  decide

example : Along true true (fun l op => LegalRing l op ∧ KeepsFirst l op) []
    ([.append (1, 10), .appendleft (2, 20), .insertBefore 0 (7, 70), .extract (-1), .extract 1, .backward, .ends, .popleft, .append (3, 30)] :
      List (LOp Nat Nat)) := by
  simp [Along, LegalRing, KeepsFirst, listSpec, specInsert, specExtract, pyAt]

example : Along true true (fun l op => LegalRing l op ∧ NotHeadPrev l op) []
    ([.append (1, 10), .append (2, 20), .popleft, .insertAfter 0 (7, 70), .insertBefore 1 (3, 30), .popleft, .popright, .popleft, .append (3, 30)] :
      List (LOp Nat Nat)) := by
  simp [Along, LegalRing, NotHeadPrev, listSpec, specInsert, specExtract, pyAt]

end Props
