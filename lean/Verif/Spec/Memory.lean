/-
What a memory is: a log of accesses is right when every read returns the value of the latest earlier write to its address.
-/
namespace EmpZk

/-- One access: address, write flag, value written or returned. -/
structure Acc (α : Type) where
  idx : Nat
  op : Bool
  val : α
deriving DecidableEq, Repr

variable {α : Type}

/-- Value of the latest write to `a` in the log, if any. -/
def lastWrite (l : List (Acc α)) (a : Nat) : Option α :=
  l.foldl (fun m e => if e.op = true ∧ e.idx = a then some e.val else m) none

/-- Every read of an address written before returns the latest value written to it. -/
def ReadsLastWrite (l : List (Acc α)) : Prop :=
  ∀ (i : Nat) (e : Acc α), l[i]? = some e → e.op = false → ∀ v, lastWrite (l.take i) e.idx = some v → e.val = v

/-- Every read is of an address written before. -/
def WrittenFirst (l : List (Acc α)) : Prop :=
  ∀ (i : Nat) (e : Acc α), l[i]? = some e → e.op = false → ∃ v, lastWrite (l.take i) e.idx = some v

/-- Every read of an address accessed before returns the value of the latest earlier access to it. -/
def ReadsPrev (l : List (Acc α)) : Prop :=
  ∀ (i : Nat) (e : Acc α), l[i]? = some e → e.op = false → ∀ (j : Nat) (f : Acc α), j < i → l[j]? = some f → f.idx = e.idx →
    (∀ (k : Nat) (g : Acc α), j < k → k < i → l[k]? = some g → g.idx ≠ e.idx) → f.val = e.val

theorem lastWrite_append (l : List (Acc α)) (e : Acc α) (a : Nat) :
    lastWrite (l ++ [e]) a = if e.op = true ∧ e.idx = a then some e.val else lastWrite l a := by
  simp [lastWrite]

/-- If each read repeats the latest access to its address, then it returns the latest write. -/
theorem ReadsPrev.last {l : List (Acc α)} (h : ReadsPrev l) : ReadsLastWrite l := by
  -- strong induction on the position: the value of the latest access before `i` to `a` is the latest write, if there is one
  have key : ∀ i, i ≤ l.length → ∀ a v, lastWrite (l.take i) a = some v →
      ∃ j f, j < i ∧ l[j]? = some f ∧ f.idx = a ∧ f.val = v ∧
        ∀ (k : Nat) (g : Acc α), j < k → k < i → l[k]? = some g → g.idx ≠ a := by
    intro i
    induction i with
    | zero => intro _ a v hv; simp [lastWrite] at hv
    | succ i ih =>
      intro hi a v hv
      have hl : l[i]? = some l[i] := List.getElem?_eq_getElem (by omega)
      have ht : l.take (i + 1) = l.take i ++ [l[i]] := by
        rw [List.take_add_one, hl]; rfl
      rw [ht, lastWrite_append] at hv
      by_cases hidx : l[i].idx = a
      · refine ⟨i, l[i], by omega, hl, hidx, ?_, by intro k g h1 h2; omega⟩
        by_cases hop : l[i].op = true
        · rw [if_pos ⟨hop, hidx⟩] at hv
          exact Option.some.inj hv
        · rw [if_neg (by simp [hop])] at hv
          obtain ⟨j, f, h1, h2, h3, h4, h5⟩ := ih (by omega) a v hv
          rw [← h4]
          exact (h i l[i] hl (by simpa using hop) j f h1 h2 (by rw [h3, hidx])
            (by intro k g a1 a2 a3; rw [hidx]; exact h5 k g a1 a2 a3)).symm
      · rw [if_neg (by simp [hidx])] at hv
        obtain ⟨j, f, h1, h2, h3, h4, h5⟩ := ih (by omega) a v hv
        refine ⟨j, f, by omega, h2, h3, h4, ?_⟩
        intro k g a1 a2 a3
        by_cases hk : k = i
        · subst hk
          rw [hl] at a3
          rw [← Option.some.inj a3]
          exact hidx
        · exact h5 k g a1 (by omega) a3
  intro i e he hop v hv
  have hi : i < l.length := (List.getElem?_eq_some_iff.1 he).1
  obtain ⟨j, f, h1, h2, h3, h4, h5⟩ := key i (by omega) e.idx v hv
  rw [← h4]
  exact (h i e he hop j f h1 h2 h3 h5).symm

end EmpZk
