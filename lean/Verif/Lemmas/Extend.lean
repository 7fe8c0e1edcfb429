/-
Lemmas on one extension: lengths and congruence.
-/
import Verif.Model.VoleTriple
import Verif.Lemmas.Mpfss

namespace EmpZk

theorem mapM_congr' {α β : Type} (l : List α) (f g : α → Option β) (h : ∀ a ∈ l, f a = g a) : l.mapM f = l.mapM g := by
  induction l with
  | nil => rfl
  | cons a l ih => rw [List.mapM_cons, List.mapM_cons, h a (by simp), ih (fun x hx => h x (by simp [hx]))]

theorem zipWith_congr' {α β γ : Type} (l : List α) (r : List β) (f g : α → β → γ) (h : ∀ a ∈ l, ∀ b, f a b = g a b) :
    List.zipWith f l r = List.zipWith g l r := by
  induction l generalizing r with
  | nil => rfl
  | cons a l ih =>
    cases r with
    | nil => rfl
    | cons b r => rw [List.zipWith_cons_cons, List.zipWith_cons_cons, h a (by simp), ih _ (fun x hx => h x (by simp [hx]))]

theorem range_map_ofList (l : List U128) (n : Nat) (h : l.length = n) : (List.range n).map (ofList l) = l := by
  subst h
  apply List.ext_getElem?
  intro i
  by_cases hi : i < l.length
  · rw [List.getElem?_map, List.getElem?_range hi, List.getElem?_eq_getElem hi, Option.map_some]
    simp [ofList, hi]
  · rw [List.getElem?_eq_none (by simp; omega), List.getElem?_eq_none (by omega)]

theorem ofList_get (l : List U128) (i : Nat) (h : i < l.length) : l[i]? = some (ofList l i) := by
  rw [List.getElem?_eq_getElem h]
  simp [ofList, h]

theorem foldlM_len {α : Type} (f : List U128 → α → Option (List U128)) (hf : ∀ A x A', f A x = some A' → A'.length = A.length)
    (l : List α) : ∀ A A', l.foldlM f A = some A' → A'.length = A.length := by
  induction l with
  | nil => intro A A' h; simp only [List.foldlM_nil, Option.pure_def, Option.some.injEq] at h; rw [h]
  | cons x l ih =>
    intro A A' h
    rw [List.foldlM_cons, Option.bind_eq_bind, Option.bind_eq_some_iff] at h
    obtain ⟨B, h1, h2⟩ := h
    rw [ih B A' h2, hf A x B h1]

theorem lpnUpdate_len (f : U128 → List U128 → U128) (A : List U128) (pos : Nat) (ps A' : List U128) (h : lpnUpdate f A pos ps = some A') :
    A'.length = A.length := by
  unfold lpnUpdate at h
  rw [Option.bind_eq_bind, Option.bind_eq_some_iff] at h
  obtain ⟨a, _, h2⟩ := h
  rw [Option.some.injEq] at h2
  subst h2
  simp

theorem lpnSend_len (prp : Nat → Nat → BitVec 32) (n k threads : Nat) (K pre K' : List U128)
    (h : lpnComputeSend prp n k threads K pre = some K') : K'.length = K.length := by
  refine foldlM_len _ ?_ _ K K' h
  intro A op A' h
  refine foldlM_len _ ?_ _ A A' h
  intro B l B' h
  simp only [Option.bind_eq_bind] at h
  rw [Option.bind_eq_some_iff] at h
  obtain ⟨ps, _, h2⟩ := h
  exact lpnUpdate_len _ _ _ _ _ h2

theorem lpnRecv_len (prp : Nat → Nat → BitVec 32) (n k threads : Nat) (K pre K' : List U128)
    (h : lpnComputeRecv prp n k threads K pre = some K') : K'.length = K.length := by
  refine foldlM_len _ ?_ _ K K' h
  intro A op A' h
  refine foldlM_len _ ?_ _ A A' h
  intro B l B' h
  simp only [Option.bind_eq_bind] at h
  rw [Option.bind_eq_some_iff] at h
  obtain ⟨ps, _, h2⟩ := h
  exact lpnUpdate_len _ _ _ _ _ h2

theorem mapM_forall {α β : Type} (f : α → Option β) (P : β → Prop) (l : List α) (hf : ∀ a b, f a = some b → P b) :
    ∀ r, l.mapM f = some r → r.length = l.length ∧ ∀ x ∈ r, P x := by
  induction l with
  | nil => intro r h; simp only [List.mapM_nil, Option.pure_def, Option.some.injEq] at h; subst h; simp
  | cons a l ih =>
    intro r h
    rw [List.mapM_cons, Option.bind_eq_bind, Option.bind_eq_some_iff] at h
    obtain ⟨b, h1, h2⟩ := h
    rw [Option.bind_eq_bind, Option.bind_eq_some_iff] at h2
    obtain ⟨r', h3, h4⟩ := h2
    simp only [Option.pure_def, Option.some.injEq] at h4
    subst h4
    obtain ⟨i1, i2⟩ := ih r' h3
    refine ⟨by simp [i1], ?_⟩
    intro x hx
    rcases List.mem_cons.1 hx with rfl | hx
    · exact hf a _ h1
    · exact i2 x hx

theorem flatten_len (l : List (List U128)) (w : Nat) (h : ∀ x ∈ l, x.length = w) : l.flatten.length = l.length * w := by
  induction l with
  | nil => simp
  | cons x l ih =>
    rw [List.flatten_cons, List.length_append, h x (by simp), ih (fun y hy => h y (by simp [hy])), List.length_cons]
    ring

theorem extSendOut_len (c : ExtCfg) (seed : Nat → U128) (mem : Nat → Mem) (key : Nat → U128) (out : List U128)
    (h : extSendOut c seed mem key = some out) : out.length = c.n := by
  unfold extSendOut at h
  rw [Option.bind_eq_bind, Option.bind_eq_some_iff] at h
  obtain ⟨S, h1, h2⟩ := h
  rw [lpnSend_len _ _ _ _ _ _ _ h2]
  obtain ⟨a1, a2⟩ := mapM_forall _ (fun t : List U128 × List (U128 × U128) × W => t.1.length = 2 ^ c.levels) _ (by
    intro i t ht
    unfold spfssSend at ht
    split at ht
    · simp at ht
    · simp only [Option.some.injEq] at ht
      subst ht
      simp) S h1
  rw [flatten_len _ (2 ^ c.levels) (by
    intro x hx
    obtain ⟨t, ht, rfl⟩ := List.mem_map.1 hx
    exact a2 t ht), List.length_map, a1, List.length_range]
  rfl

theorem extRecv_len (c : ExtCfg) (digest : Nat → W) (b : Nat → Nat → Bool) (m : Nat → Nat → U128) (mem : Nat → Mem) (share : Nat → W)
    (mac : Nat → U128) (r : W × W × List U128) (h : extRecv c digest b m mem share mac = some r) : r.2.2.length = c.n := by
  unfold extRecv at h
  simp only [Option.bind_eq_bind, Option.bind_eq_some_iff] at h
  obtain ⟨R, h1, r', h2, out, h3, h4⟩ := h
  rw [Option.some.injEq] at h4
  subst h4
  show out.length = c.n
  rw [lpnRecv_len _ _ _ _ _ _ _ h3]
  obtain ⟨a1, a2⟩ := mapM_forall _ (fun t : List U128 => t.length = 2 ^ c.levels) _ (by
    intro i t ht
    unfold spfssRecv at ht
    split at ht
    · simp at ht
    · simp only [Option.some.injEq] at ht
      subst ht
      simp) R h1
  unfold mpfssCheckRecv at h2
  simp only [Option.bind_eq_bind, Option.bind_eq_some_iff] at h2
  obtain ⟨Q, h5, h6⟩ := h2
  rw [Option.some.injEq] at h6
  subst h6
  obtain ⟨b1, b2⟩ := mapM_forall _ (fun t : W × W × List U128 => t.2.2.length = 2 ^ c.levels) _ (by
    intro i t ht
    rw [Option.bind_eq_some_iff] at ht
    obtain ⟨l, hl, ht⟩ := ht
    unfold spfssCheckRecv at ht
    simp only [Option.bind_eq_bind, Option.bind_eq_some_iff] at ht
    obtain ⟨_, _, _, _, x, _, ht⟩ := ht
    rw [Option.some.injEq] at ht
    subst ht
    simp only [List.length_set]
    exact a2 l (List.mem_of_getElem? hl)) Q h5
  simp only
  rw [flatten_len _ (2 ^ c.levels) (by
    intro x hx
    obtain ⟨t, ht, rfl⟩ := List.mem_map.1 hx
    exact b2 t ht), List.length_map, b1, List.length_range]
  rfl

end EmpZk
