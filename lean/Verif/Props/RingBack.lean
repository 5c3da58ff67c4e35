import Verif.Props.LinkedList

set_option linter.unusedSimpArgs false
/-!
# C42, what the doubly circular list does with `head.prev`

`extract(0)` of two or more nodes leaves the new first node without a predecessor (`head.prev is None`). The link is put right by the next
insertion at either end, by `insert_at(-1, …)`, by `insert_after` the last node and by an extraction of the last node.
-/
namespace Props
open Py Model Spec

variable {κ δ : Type}

/-- Whether `head.prev` is the last node after the call; `hp`: before the call. -/
def backAfter (hp : Bool) (l : List (κ × δ)) : LOp κ δ → Bool
  | .insertAt i _ => if i = 0 ∨ i = l.length ∨ i = -1 then true else hp
  | .appendleft _ | .append _ => true
  | .insertAfter i _ => if l ≠ [] ∧ pyAt l.length i = some (l.length - 1) then true else hp
  | .extract i => if pyAt l.length i = none then hp else if l.length = 1 then true
    else if pyAt l.length i = some 0 then false else if pyAt l.length i = some (l.length - 1) then true else hp
  | .popleft => if l.length ≤ 1 then true else false
  | .popright => true
  | _ => hp

/-- Each call on a plain list together with the flag: only `head.prev` shows it. -/
def backSpec [DecidableEq κ] (st : List (κ × δ) × Bool) (op : LOp κ δ) : (List (κ × δ) × Bool) × LOut κ δ :=
  (((listSpec true true st.1 op).1, backAfter st.2 st.1 op),
    match op with
    | .ends => .two st.1.head? (if st.2 then st.1.getLast? else none)
    | op => (listSpec true true st.1 op).2)

/-- No `insert_before` the first node. -/
def NotBeforeFirst (l : List (κ × δ)) : LOp κ δ → Prop
  | .insertBefore i _ => pyAt l.length i ≠ some 0
  | _ => True

/-- As for C41, and no `insert_before` the first node while its `prev` is `None`. -/
def AlongBack [DecidableEq κ] : List (κ × δ) × Bool → List (LOp κ δ) → Prop
  | _, [] => True
  | st, op :: ops => LegalRing st.1 op ∧
    (st.2 = false → NotBeforeFirst st.1 op) ∧ AlongBack (backSpec st op).1 ops

/-- The object holds the list `l`, and `head.prev` is the last node or `None`, as `hp` says. -/
def BackInv (hp : Bool) (s : LL κ δ) (l : List (κ × δ)) : Prop :=
  ∃ ids, Rep true true hp s ids l ∧ (hp = false → ∀ h, ids[0]? = some h → s.prev h = none)

theorem BackInv.of_true {s : LL κ δ} {l : List (κ × δ)} {ids : List Nat} (hp : Bool) (R : Rep true true true s ids l) (h : hp = true) : BackInv hp s l := by
  subst h; exact ⟨ids, R, by intro h; cases h⟩

theorem insFin_head {hp : Bool} {s : LL κ δ} {l : List (κ × δ)} {ids : List Nat} (R : Rep true true hp s ids l) {k : Nat} {x : κ × δ}
    (hk : k ≠ 0) (hk' : k < ids.length) (hn : ∀ h, ids[0]? = some h → s.prev h = none) :
    ∀ h, (ids.insertIdx k s.fresh)[0]? = some h → (insFin true true s ids k x).prev h = none := by
  intro h hh
  have h1 := R.lt 0 h
  have h2 := R.inj 0 k h
  rw [List.getElem?_insertIdx] at hh
  simp only [insFin]
  grind

theorem extFin_head {hp : Bool} {s : LL κ δ} {l : List (κ × δ)} {ids : List Nat} (R : Rep true true hp s ids l) {k : Nat}
    (hk : k + 1 < ids.length) (hn : k ≠ 0 → ∀ h, ids[0]? = some h → s.prev h = none) :
    ∀ h, (ids.eraseIdx k)[0]? = some h → (extFin true true s ids k).prev h = none := by
  intro h hh
  have h1 := R.inj 0 (k + 1) h
  rw [List.getElem?_eraseIdx] at hh
  simp only [extFin, nx]
  grind

theorem extFin_last {hp : Bool} {s : LL κ δ} {l : List (κ × δ)} {ids : List Nat} (R : Rep true true hp s ids l) {k : Nat}
    (hk : k + 1 = ids.length) (hk0 : k ≠ 0) : Rep true true true (extFin true true s ids k) (ids.eraseIdx k) (l.eraseIdx k) := by
  have RE := R.ext (hp' := false) (k := k) (by omega) (by intro h; cases h) (by intro h; cases h)
  refine RE.headOk ?_
  intro h hh
  rw [List.getElem?_eraseIdx] at hh
  simp only [extFin, nx, List.getElem?_eraseIdx, List.length_eraseIdx]
  grind

theorem back_insert {hp : Bool} {s : LL κ δ} {l : List (κ × δ)} (I : BackInv hp s l) (i : Int) (x : κ × δ)
    (hleg : LegalRing l (.insertAt i x)) :
    BackInv (backAfter hp l (.insertAt i x)) (wrapUnit s (dcllClass.insertAt s i x)).1 (specInsert l i x).1 ∧
      (wrapUnit s (dcllClass.insertAt s i x)).2 = (specInsert l i x).2 := by
  obtain ⟨ids, R, hn⟩ := I
  have hlen := R.len
  have hsz := R.size
  have hleg' := LegalRing.legal _ _ hleg
  simp only [Legal] at hleg'
  unfold specInsert
  by_cases hfar : i > l.length
  · have e : dcllClass.insertAt s i x = .error .indexError := by
      show dcllInsertAt s i x = _
      rw [dcllInsertAt, (far_insert s i x (by omega)).2]; rfl
    rw [if_pos hfar, e]
    simp only [backAfter, wrapUnit]
    rw [if_neg (by omega)]
    exact ⟨⟨ids, R, hn⟩, trivial⟩
  · rw [if_neg hfar]
    have hpos : InsPos l.length i (if i < 0 then (l.length + i).toNat else i.toNat) := by
      rcases hleg' with h | ⟨rfl, rfl⟩
      · constructor <;> split <;> omega
      · exact ⟨by simp, Or.inr (Or.inr ⟨rfl, rfl⟩)⟩
    have hc := LegalRing.ins hleg hpos
    generalize hkd : (if i < 0 then ((l.length : Int) + i).toNat else i.toNat) = k at *
    rw [← hlen] at hpos hc
    obtain ⟨s', e, R', ht, hf⟩ := dcllInsertAt_eq R hpos hc x
    have e' : dcllClass.insertAt s i x = .ok s' := e
    rw [e']
    refine ⟨?_, rfl⟩
    by_cases hend : i = 0 ∨ i = l.length ∨ i = -1
    · refine BackInv.of_true _ (ht ?_) (by simp only [backAfter]; rw [if_pos hend])
      rcases hend with h | h | h
      · left; rw [if_neg (by omega)] at hkd; omega
      · right; left; rw [if_neg (by omega)] at hkd; omega
      · right; right; exact h
    · have h1 := hpos.1
      have hk0 : k ≠ 0 := by
        intro h
        by_cases hneg : i < 0
        · have := hc hneg h
          have h2 := hpos.2
          omega
        · rw [if_neg hneg] at hkd; omega
      have hkl : k ≠ ids.length := by
        intro h
        by_cases hneg : i < 0
        · rw [if_pos hneg] at hkd; omega
        · rw [if_neg hneg] at hkd; omega
      simp only [backAfter]
      rw [if_neg hend]
      refine ⟨_, R', fun hp0 => ?_⟩
      rw [show (wrapUnit s (Except.ok s')).1 = s' from rfl, hf (by omega)]
      exact insFin_head R hk0 (by omega) (hn hp0)

theorem back_extract {hp : Bool} {s : LL κ δ} {l : List (κ × δ)} (I : BackInv hp s l) (i : Int)
    (hleg : LegalRing l (.extract i)) :
    BackInv (backAfter hp l (.extract i)) (wrapNode s (do let r ← dcllClass.extract s i; .ok (r.1, some r.2))).1 (specExtract l i).1 ∧
      (wrapNode s (do let r ← dcllClass.extract s i; .ok (r.1, some r.2))).2 = (specExtract l i).2 := by
  obtain ⟨ids, R, hn⟩ := I
  have hlen := R.len
  have hsz := R.size
  have hleg' := LegalRing.legal _ _ hleg
  simp only [Legal] at hleg'
  unfold specExtract
  by_cases hnil : l = []
  · have e : dcllClass.extract s i = .error .valueError := by
      show dcllExtract s i = _
      rw [dcllExtract, (none_extract s i (by rw [hsz, hnil]; rfl)).2]; rfl
    rw [if_pos hnil, e]
    have : pyAt l.length i = none := by subst hnil; simp only [pyAt, List.length_nil]; rw [if_neg (by omega), if_neg (by omega)]
    simp only [backAfter, if_pos this]
    exact ⟨⟨ids, R, hn⟩, rfl⟩
  · rw [if_neg hnil]
    have hpos : 0 < l.length := List.length_pos_iff.2 hnil
    have hleg' : -(l.length : Int) ≤ i := hleg'.resolve_left hnil
    cases hat : pyAt l.length i with
    | none =>
      have := pyAt_none hat hleg'
      have e : dcllClass.extract s i = .error .indexError := by
        show dcllExtract s i = _
        rw [dcllExtract, (far_extract s i (by omega) (by omega)).2]; rfl
      rw [e]
      simp only [backAfter, if_pos hat]
      exact ⟨⟨ids, R, hn⟩, rfl⟩
    | some k =>
      have hE := pyAt_ext hat
      have hk : k < ids.length := by rw [hlen]; exact hE.1
      have hc := LegalRing.ext hleg hE
      rw [← hlen] at hE hc
      have hx : s.val ids[k] = some l[k] := by
        rw [R.vals k _ (List.getElem?_eq_getElem hk), List.getElem?_eq_getElem (by omega)]
      have e : dcllClass.extract s i = .ok (extFin true true s ids k, ids[k]) := dcllExtract_eq R hE (List.getElem?_eq_getElem hk) hc
      rw [e]
      have hv : (extFin true true s ids k).val = s.val := rfl
      simp only [ok_bind, wrapNode, hv, hx, List.getElem?_eq_getElem (show k < l.length by omega)]
      refine ⟨?_, trivial⟩
      simp only [backAfter, hat]
      rw [if_neg (by simp)]
      by_cases h1 : l.length = 1
      · rw [if_pos h1]
        refine BackInv.of_true (ids := ids.eraseIdx k) true ?_ rfl
        have hk0 : k = 0 := by omega
        have RE := R.ext (hp' := false) (k := k) (by omega) (by intro h; cases h) (by intro h; cases h)
        refine RE.headOk ?_
        intro h hh
        have : ids.eraseIdx k = [] := List.length_eq_zero_iff.1 (by rw [List.length_eraseIdx, if_pos hk]; omega)
        rw [this] at hh; simp at hh
      · rw [if_neg h1]
        by_cases h0 : k = 0
        · rw [if_pos (by rw [h0])]
          exact ⟨_, R.ext hk (by intro h; cases h) (by intro h; cases h), fun _ => extFin_head R (by omega) (fun h => absurd h0 h)⟩
        · rw [if_neg (by simpa using h0)]
          by_cases hl : k = l.length - 1
          · rw [if_pos (by rw [hl])]
            exact BackInv.of_true true (extFin_last R (by omega) h0) rfl
          · rw [if_neg (by simpa using hl)]
            exact ⟨_, R.ext hk id (fun _ _ _ h => absurd h h0), fun hp0 => extFin_head R (by omega) (fun _ => hn hp0)⟩

theorem back_walk {hp : Bool} {s : LL κ δ} {l : List (κ × δ)} (I : BackInv hp s l) : llBackward s = .ok l.reverse := by
  obtain ⟨ids, R, hn⟩ := I
  cases hp with
  | true => exact llBackward_eq R
  | false =>
    have hn := hn rfl
    have hlen := R.len
    have hroom := R.room
    have hrev : ∀ (j : Nat), j < ids.length → ids.reverse[j]? = ids[ids.length - 1 - j]? := fun j hj => by
      rw [List.getElem?_reverse hj]
    cases hids : ids.reverse with
    | nil =>
      have h0 : ids = [] := by simpa using hids
      rw [h0] at hlen
      have : l = [] := List.length_eq_zero_iff.1 hlen.symm
      have hh : s.tail = none := by rw [R.tail, h0]; rfl
      simp [llBackward, hh, whileLoop, ok_bind, this]
    | cons c p =>
      have hpl : p.length + 1 = ids.length := by
        have := congrArg List.length hids
        simpa using this.symm
      have hh : s.tail = some c := by
        have := hrev 0 (by omega)
        rw [hids] at this
        rw [R.tail]
        simpa using this.symm
      have hcp : ∀ (j i : Nat), (c :: p)[j]? = some i → j < ids.length ∧ ids[ids.length - 1 - j]? = some i := by
        intro j i hj
        have : j < (c :: p).length := (List.getElem?_eq_some_iff.1 hj).1
        simp at this
        refine ⟨by omega, ?_⟩
        rw [← hrev j (by omega), hids, hj]
      obtain ⟨st, e, h⟩ := collect_run s s.prev c p c l.reverse [] (s.fresh + 1) (by simp; omega)
        (by
          intro j i hj
          obtain ⟨h1, h2⟩ := hcp j i hj
          have := R.vals _ i h2
          rw [this, List.getElem?_reverse (by omega), hlen])
        (by
          intro j i hj hlt
          obtain ⟨h1, h2⟩ := hcp j i hj
          have h3 := R.prevs rfl _ i (fun h => by omega) h2
          rw [pv, if_neg (by omega)] at h3
          have h4 : (c :: p)[j + 1]? = ids[ids.length - 1 - j - 1]? := by
            rw [← hids, hrev _ (by omega)]; congr 1
          refine ⟨by rw [h3, h4], ?_⟩
          rw [h3]
          intro h
          have h5 : ids[ids.length - 1]? = some c := by rw [← R.tail, hh]
          have := R.inj _ _ c h h5
          omega)
        (by
          intro i hi
          obtain ⟨h1, h2⟩ := hcp _ i hi
          left
          refine hn i ?_
          rw [← h2]; congr 1; omega) (by omega)
      show (whileLoop (s.fresh + 1) _ (collectBody s s.prev s.tail) (s.tail, false, []) >>= _) = _
      rw [hh, e, ok_bind, h]
      rfl

theorem back_ends {hp : Bool} {s : LL κ δ} {l : List (κ × δ)} (I : BackInv hp s l) :
    look s (s.tail.bind s.next) = l.head? ∧ look s (s.head.bind s.prev) = if hp then l.getLast? else none := by
  obtain ⟨ids, R, hn⟩ := I
  have hlen := R.len
  have hh := R.head
  have ht := R.tail
  by_cases h0 : l = []
  · subst h0
    have : ids = [] := List.length_eq_zero_iff.1 hlen
    subst this
    simp at hh ht
    rw [hh, ht]
    simp [look]
  · have hpos : 0 < l.length := List.length_pos_iff.2 h0
    have i0 : 0 < ids.length := by omega
    have i1 : ids.length - 1 < ids.length := by omega
    have v0 := R.vals 0 _ (List.getElem?_eq_getElem i0)
    have v1 := R.vals _ _ (List.getElem?_eq_getElem i1)
    have n1 := R.nexts _ _ (List.getElem?_eq_getElem i1)
    rw [List.getElem?_eq_getElem i0] at hh
    rw [List.getElem?_eq_getElem i1] at ht
    rw [nx, if_neg (by omega), List.getElem?_eq_getElem i0] at n1
    rw [hh, ht]
    simp only [Option.bind_some, n1]
    constructor
    · simp [look, v0, List.head?_eq_getElem?]
    · cases hp with
      | true =>
        have p0 := R.prevs rfl _ _ (fun _ => rfl) (List.getElem?_eq_getElem i0)
        rw [pv, if_pos rfl, List.getElem?_eq_getElem i1] at p0
        simp only [p0, if_true, look, Option.bind_some, List.getLast?_eq_getElem?]
        rw [v1, hlen]
      | false =>
        rw [hn rfl _ (List.getElem?_eq_getElem i0)]
        rfl

theorem back_step [DecidableEq κ] {hp : Bool} {s : LL κ δ} {l : List (κ × δ)} (I : BackInv hp s l) (op : LOp κ δ)
    (hleg : LegalRing l op) (hsafe : hp = false → NotBeforeFirst l op) :
    BackInv (backSpec (l, hp) op).1.2 (llStep dcllClass true s op).1 (backSpec (l, hp) op).1.1 ∧
      (llStep dcllClass true s op).2 = (backSpec (l, hp) op).2 := by
  have hI := I
  obtain ⟨ids, R, hn⟩ := I
  have hlen := R.len
  have hsz := R.size
  have viaRep : (∀ i x, op ≠ .insertBefore i x) → op ≠ .backward → op ≠ .ends → (llStep dcllClass true s op).1 = s →
      (llStep dcllClass true s op).2 = (listSpec true true l op).2 := by
    intro h1 h2 h3 h4
    have C := dcll_ok (κ := κ) (δ := δ) false (fun l op => LegalRing l op ∧ NotHeadPrev l op) (fun _ _ h => h.1) (fun h => by cases h) (fun _ _ _ => Iff.rfl)
    have R0 : Rep true true false s ids l := ⟨R.len, R.inj, R.lt, R.vals, R.nexts, fun _ k i hk hi => R.prevs rfl k i (fun h => by cases hk h) hi, R.head, R.tail, R.size, R.room⟩
    obtain ⟨_, _, e⟩ := sim_step C R0 op ⟨hleg, by
      cases op <;> simp only [NotHeadPrev]
      · exact absurd rfl (h1 _ _)
      · exact h2 rfl
      · exact h3 rfl⟩
    exact e
  have getFar : ∀ i : Int, (l.length : Int) ≤ i → llGet s i = .error .indexError := by
    intro i hi
    simp only [llGet]
    have hneg : ¬ i < 0 := by omega
    simp only [if_neg hneg]
    rw [if_pos (by omega)]
  cases op with
  | insertAt i x => exact back_insert hI i x hleg
  | appendleft x =>
    have := back_insert hI 0 x (ring_left l x)
    have hn : ¬ (0 : Int) > l.length := by omega
    simp only [specInsert, if_neg hn, backAfter] at this
    simpa [backSpec, listSpec, llStep, LLClass.appendleft, backAfter] using this
  | append x =>
    have := back_insert hI l.length x (ring_right l x)
    simp only [specInsert] at this
    rw [if_neg (by omega), if_neg (by omega)] at this
    have hr : backAfter hp l (.insertAt l.length x) = true := by simp [backAfter]
    rw [hr] at this
    simpa [backSpec, backAfter, listSpec, llStep, LLClass.append, hsz] using this
  | insertAfter i x =>
    simp only [LegalRing] at hleg
    simp only [llStep, listSpec, backSpec, backAfter]
    cases hat : pyAt l.length i with
    | none =>
      rw [getFar i (pyAt_none hat hleg)]
      rw [if_neg (by intro h; cases h.2)]
      exact ⟨⟨ids, R, hn⟩, rfl⟩
    | some k =>
      have hE := pyAt_ext hat
      have hk : k < ids.length := by rw [hlen]; exact hE.1
      have hne : l ≠ [] := by intro h; subst h; exact absurd hE.1 (by simp)
      have e : dcllClass.insertAfter s ids[k] x = .ok (insFin true true s ids (k + 1) x) := dcllInsertAfter_eq R (List.getElem?_eq_getElem hk) x
      rw [llGet_eq R (by rw [hlen]; exact hE), ok_bind, List.getElem?_eq_getElem hk, deref, ok_bind, e]
      refine ⟨?_, rfl⟩
      by_cases hl : k = l.length - 1
      · rw [if_pos ⟨hne, by rw [hl]⟩]
        exact BackInv.of_true true (R.insEnd (by omega) x (Or.inr (by omega))) rfl
      · rw [if_neg (by intro h; exact hl (by simpa using h.2))]
        exact ⟨_, R.ins (by omega) x, fun hp0 => insFin_head R (by omega) (by omega) (hn hp0)⟩
  | insertBefore i x =>
    simp only [LegalRing] at hleg
    simp only [llStep, listSpec, backSpec, backAfter]
    cases hat : pyAt l.length i with
    | none =>
      rw [getFar i (pyAt_none hat hleg)]
      exact ⟨⟨ids, R, hn⟩, rfl⟩
    | some k =>
      have hE := pyAt_ext hat
      have hk : k < ids.length := by rw [hlen]; exact hE.1
      have hk0 : hp = false → k ≠ 0 := by
        intro h h0
        exact hsafe h (by rw [hat, h0])
      have e : dcllClass.insertBefore s ids[k] x = .ok (insFin true true s ids k x) :=
        dcllInsertBefore_eq R (List.getElem?_eq_getElem hk) x (fun h0 => by cases hp with | true => rfl | false => exact absurd h0 (hk0 rfl))
      rw [llGet_eq R (by rw [hlen]; exact hE), ok_bind, List.getElem?_eq_getElem hk, deref, ok_bind, e]
      exact ⟨⟨_, R.ins (by omega) x, fun hp0 => insFin_head R (hk0 hp0) hk (hn hp0)⟩, rfl⟩
  | extract i => exact back_extract hI i hleg
  | popleft =>
    have := back_extract hI 0 (ring_popleft l)
    simp only [llStep, listSpec, LLClass.popleft, backSpec]
    cases l with
    | nil =>
      simp [specExtract, pyAt, backAfter] at this
      refine ⟨?_, this.2⟩
      obtain ⟨⟨ids, R, hn⟩, _⟩ := this
      simp only [backAfter, List.length_nil, Nat.zero_le, if_true]
      refine BackInv.of_true true (R.headOk ?_) rfl
      have : ids = [] := List.length_eq_zero_iff.1 R.len
      subst this
      intro i hi; simp at hi
    | cons x l =>
      simp [specExtract, pyAt, backAfter] at this
      simp [backAfter]
      by_cases h : l = []
      · simpa [h] using this
      · simpa [h] using this
  | popright =>
    have := back_extract hI (-1) (ring_popright l)
    simp only [llStep, listSpec, LLClass.popright, backSpec]
    rcases List.eq_nil_or_concat l with rfl | ⟨l', x, rfl⟩
    · simp [specExtract, pyAt, backAfter] at this
      refine ⟨?_, by simpa using this.2⟩
      obtain ⟨⟨ids, R, hn⟩, _⟩ := this
      simp only [backAfter]
      refine BackInv.of_true true (R.headOk ?_) rfl
      have : ids = [] := List.length_eq_zero_iff.1 R.len
      subst this
      intro i hi; simp at hi
    · rw [List.concat_eq_append] at *
      have hat : pyAt (l' ++ [x]).length (-1) = some l'.length := by
        unfold pyAt
        rw [if_neg (by omega), if_pos (by simp; omega)]
        congr 1
        simp only [List.length_append, List.length_cons, List.length_nil]
        omega
      have hr : backAfter hp (l' ++ [x]) (.extract (-1)) = true := by
        simp only [backAfter, hat]
        rw [if_neg (by simp)]
        by_cases h : l' = []
        · simp [h]
        · have := List.length_pos_iff.2 h
          rw [if_neg (by simp; exact h), if_neg (by simp; exact h), if_pos (by simp)]
      simp only [hr, specExtract, hat, if_neg (show ¬ l' ++ [x] = [] by simp)] at this
      have he : (l' ++ [x]).eraseIdx l'.length = l' := by
        rw [List.eraseIdx_append_of_length_le (Nat.le_refl _)]; simp
      rw [he] at this
      simpa [backAfter] using this
  | get i =>
    have h1 : (llStep dcllClass true s (.get i)).1 = s := by
      simp only [llStep]
      cases llGet s i with
      | error e => rfl
      | ok p => cases p <;> rfl
    have := viaRep (by intro _ _ h; cases h) (by intro h; cases h) (by intro h; cases h) h1
    rw [h1]
    exact ⟨hI, this⟩
  | search key =>
    have h1 : (llStep dcllClass true s (.search key)).1 = s := by
      simp only [llStep]
      cases llSearch s key with
      | error e => rfl
      | ok p => cases p <;> rfl
    have := viaRep (by intro _ _ h; cases h) (by intro h; cases h) (by intro h; cases h) h1
    rw [h1]
    exact ⟨hI, this⟩
  | str =>
    have h1 : (llStep dcllClass true s .str).1 = s := by simp only [llStep]; split <;> rfl
    have := viaRep (by intro _ _ h; cases h) (by intro h; cases h) (by intro h; cases h) h1
    rw [h1]
    exact ⟨hI, this⟩
  | len => exact ⟨hI, viaRep (by intro _ _ h; cases h) (by intro h; cases h) (by intro h; cases h) rfl⟩
  | isEmpty => exact ⟨hI, viaRep (by intro _ _ h; cases h) (by intro h; cases h) (by intro h; cases h) rfl⟩
  | backward =>
    simp only [llStep, backSpec, listSpec, backAfter, back_walk hI, if_true]
    exact ⟨hI, trivial⟩
  | ends =>
    have := back_ends hI
    simp only [llStep, backSpec, listSpec, backAfter, if_true, this]
    exact ⟨hI, trivial⟩

theorem back_run [DecidableEq κ] : ∀ (ops : List (LOp κ δ)) (s : LL κ δ) (st : List (κ × δ) × Bool),
    BackInv st.2 s st.1 → AlongBack st ops → trace (llStep dcllClass true) s ops = trace backSpec st ops := by
  intro ops
  induction ops with
  | nil => intros; rfl
  | cons op ops ih =>
    intro s st I ⟨h1, h2, h3⟩
    obtain ⟨I', e⟩ := back_step I op h1 h2
    simp only [trace, e]
    rw [ih _ _ I' h3]

/-- C42, exactly: through every history (without index `-len`, as for C41, and without `insert_before` a first node whose `prev` is `None`)
a doubly circular list answers as a plain list, walked backwards too, and `head.prev` is the last node exactly when `backAfter` says so. -/
theorem C42_exact_partial [DecidableEq κ] (ops : List (LOp κ δ)) (h : AlongBack ([], true) ops) :
    trace (llStep dcllClass true) LL.new ops = trace backSpec ([], true) ops :=
  back_run ops _ _ ⟨[], Rep.new _ _ _, by intro h; cases h⟩ h

/-! A popleft takes the back link away, an append puts it right again. -/

example : AlongBack ([], true)
    ([.append (1, 10), .append (2, 20), .append (3, 30), .popleft, .ends, .backward, .insertBefore 1 (4, 40), .search 9, .append (5, 50), .ends,
      .insertBefore 0 (6, 60), .ends, .backward, .popleft, .popright, .ends] : List (LOp Nat Nat)) := by
  simp [AlongBack, NotBeforeFirst, backSpec, LegalRing, listSpec, specInsert, specExtract, pyAt, backAfter]

example : trace (llStep dcllClass true) LL.new
    ([.append (1, 10), .append (2, 20), .append (3, 30), .popleft, .ends, .backward, .insertBefore 1 (4, 40), .search 9, .append (5, 50), .ends,
      .insertBefore 0 (6, 60), .ends, .backward, .popleft, .popright, .ends] : List (LOp Nat Nat)) =
    [.done, .done, .done, .node (1, 10), .two (some (2, 20)) none, .items [(3, 30), (2, 20)], .done, .nothing, .done, .two (some (2, 20)) (some (5, 50)),
      .done, .two (some (6, 60)) (some (5, 50)), .items [(5, 50), (3, 30), (4, 40), (2, 20), (6, 60)], .node (6, 60), .node (5, 50),
      .two (some (2, 20)) (some (3, 30))] := by decide

end Props
