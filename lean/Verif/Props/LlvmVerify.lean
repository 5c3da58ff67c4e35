import Verif.Props.Llvm

/-! # C94: the rules on blocks that `mod.verify()` enforces -/
open Py Spec Model.Llvm
namespace Props

private theorem split_phis (p : Nat × Instr → Bool) (l : List (Nat × Instr)) : ∃ a b, l = a ++ b ∧ (∀ x ∈ a, p x = true) ∧ b = l.dropWhile p := by
  refine ⟨l.takeWhile p, l.dropWhile p, (List.takeWhile_append_dropWhile).symm, ?_, rfl⟩
  intro x hx
  induction l with
  | nil => simp at hx
  | cons y l ih =>
    by_cases hy : p y = true
    · rw [List.takeWhile_cons_of_pos hy, List.mem_cons] at hx
      rcases hx with rfl | hx
      · exact hy
      · exact ih hx
    · rw [List.takeWhile_cons_of_neg hy] at hx; cases hx

/-- **C94**: a function that passes `verify` consists of blocks which begin with their phi nodes, go on with instructions that are neither phi nodes nor branches, and end with a
branch or a return; and every phi node lists exactly the blocks that may branch to its block. -/
theorem C94_verify (f : Fn) (h : verify f = true) (l : Nat) (b : List (Nat × Instr)) (hb : f[l]? = some b) :
    ∃ phis body last, b = phis ++ body ++ [last] ∧
      (∀ e ∈ phis, ∃ inc, e.2 = .phi inc ∧ (inc.map (·.2)).Nodup ∧
        ∀ k, k ∈ inc.map (·.2) ↔ ∃ c, f[k]? = some c ∧ ∃ e ∈ c, e.2 = .br l ∨ ∃ o m, e.2 = .cbr o l m ∨ e.2 = .cbr o m l) ∧
      (∀ e ∈ body, (∀ inc, e.2 ≠ .phi inc) ∧ e.2 ≠ .ret ∧ (∀ m, e.2 ≠ .br m) ∧ ∀ o m m', e.2 ≠ .cbr o m m') ∧
      (last.2 = .ret ∨ (∃ m, last.2 = .br m) ∨ ∃ o m m', last.2 = .cbr o m m') := by
  have hl : l < f.length := (List.getElem?_eq_some_iff.1 hb).1
  have hf := List.all_eq_true.1 h l (List.mem_range.2 hl)
  have hg : f.getD l [] = b := by rw [List.getD_eq_getElem?_getD, hb]; rfl
  rw [hg, blockFine] at hf
  simp only [Bool.and_eq_true] at hf
  obtain ⟨⟨⟨h1, h2⟩, h3⟩, h4⟩ := hf
  rcases List.eq_nil_or_concat b with rfl | ⟨b', last, rfl⟩
  · simp at h1
  rw [List.concat_eq_append] at *
  simp only [List.getLast?_concat, Option.map_some, Option.getD_some, List.dropLast_concat] at h1 h2
  have hlast : last.2.isPhi = false := by
    cases hi : last.2 <;> simp_all [Instr.ends, Instr.isPhi]
  obtain ⟨ph, body, e, hph, hbody⟩ := split_phis (fun e => e.2.isPhi) b'
  refine ⟨ph, body, last, by rw [e], ?_, ?_, ?_⟩
  · intro x hx
    have hp := hph x hx
    have hm : x ∈ b' ++ [last] := by rw [e]; simp [hx]
    have hperm := List.all_eq_true.1 h4 x hm
    cases hi : x.2 with
    | phi inc =>
      rw [hi] at hperm
      simp only [decide_eq_true_eq] at hperm
      refine ⟨inc, rfl, (hperm.nodup_iff).2 ((List.nodup_range).filter _), ?_⟩
      intro k
      rw [hperm.mem_iff, preds, List.mem_filter, List.mem_range, List.any_eq_true]
      constructor
      · rintro ⟨hk, y, hy, ht⟩
        have hgk : f.getD k [] = f[k] := by rw [List.getD_eq_getElem?_getD, List.getElem?_eq_getElem hk]; rfl
        rw [hgk] at hy
        refine ⟨f[k], List.getElem?_eq_getElem hk, y, hy, ?_⟩
        have ht := of_decide_eq_true ht
        cases hy2 : y.2 <;> rw [hy2] at ht <;> simp [Instr.targets] at ht
        · exact .inl (by rw [ht])
        · rcases ht with rfl | rfl
          · exact .inr ⟨_, _, .inl rfl⟩
          · exact .inr ⟨_, _, .inr rfl⟩
      · rintro ⟨c, hc, y, hy, ht⟩
        have hk := (List.getElem?_eq_some_iff.1 hc).1
        have hgk : f.getD k [] = c := by rw [List.getD_eq_getElem?_getD, hc]; rfl
        refine ⟨hk, y, by rw [hgk]; exact hy, decide_eq_true ?_⟩
        rcases ht with ht | ⟨o, m, ht | ht⟩ <;> rw [ht] <;> simp [Instr.targets]
    | _ => rw [hi] at hp; cases hp
  · intro x hx
    have he : x.2.ends = false := by
      have := List.all_eq_true.1 h2 x (by rw [e]; simp [hx])
      simpa using this
    have hnp : x.2.isPhi = false := by
      have hm : x ∈ (b' ++ [last]).dropWhile fun e => e.2.isPhi := by
        by_cases hne : b'.dropWhile (fun e => e.2.isPhi) = []
        · rw [hbody, hne] at hx; cases hx
        · rw [e, List.append_assoc, List.dropWhile_append_of_pos hph]
          have : (body ++ [last]).dropWhile (fun e => e.2.isPhi) = body ++ [last] := by
            rw [hbody]
            cases hc : b'.dropWhile (fun e => e.2.isPhi) with
            | nil => exact absurd hc hne
            | cons y r =>
              have hy : ¬ (y.2.isPhi = true) := by
                have hh := List.head_dropWhile_not (fun e : Nat × Instr => e.2.isPhi) (l := b') (by rw [hc]; simp)
                simp only [hc, List.head_cons] at hh
                simp [hh]
              rw [List.cons_append]; simp [List.dropWhile_cons, hy]
          rw [this]; simp [hx]
      have := List.all_eq_true.1 h3 x hm
      simpa using this
    cases hi : x.2 <;> rw [hi] at he hnp <;> first | cases he; done | cases hnp; done | simp
  · cases hi : last.2 <;> rw [hi] at h1 <;> first | cases h1; done | simp

/-- The bubble sort passes it, and it has phi nodes. -/
example : verify bubbleFn = true ∧ ∃ b ∈ bubbleFn, ∃ e ∈ b, ∃ inc, e.2 = .phi inc ∧ inc ≠ [] := by
  constructor
  · decide +kernel
  · refine ⟨_, List.mem_cons_of_mem _ (List.mem_cons_self), _, List.mem_cons_self, _, rfl, by simp⟩

/-- A phi node behind another instruction, a phi node without its entry, a block without a branch and a block with two are refused. -/
example : verify [[(0, .br 1)], [(1, .add (.const 1) (.const 1)), (2, .phi [(.const 0, 0)]), (3, .ret)]] = false ∧ verify [[(0, .br 1)], [(1, .phi []), (2, .ret)]] = false ∧
    verify [[(0, .br 1)], [(1, .add (.const 1) (.const 1))]] = false ∧ verify [[(0, .br 1), (1, .ret)], [(2, .ret)]] = false ∧
    verify [[(0, .br 1)], [(1, .phi [(.const 0, 0)]), (2, .ret)]] = true := by decide

end Props
