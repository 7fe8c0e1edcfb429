import Verif.Lemmas.RoRam
import Verif.Props.F2kProduct
/-!
C51: `ROZKRAM`, the read-only memory.
-/
namespace EmpZk

/-- C51 (honest runs). For all widths up to 64 bits, all nonempty contents that fit and all sequences of reads inside the contents,
of any length: `init` and all reads are well defined, every read returns the element stored at its address, and every automatic
check passes its condition, with sorted words that are a permutation of the recorded ones and are the words packed into the MACs;
so does a check asked for at the end (if there are at least three rows). -/
theorem C51_honest (c : RoCfg) (hc : c.isz ≤ 64 ∧ c.vsz ≤ 64) (data : List Nat) (hne : data ≠ []) (hd : data.length ≤ 2 ^ c.isz)
    (hdd : data.length < 2 ^ 60) (hv : ∀ v ∈ data, v < 2 ^ c.vsz) (reads : List Nat) (hr : ∀ i ∈ reads, i < data.length) :
    ∃ st0 st vs chks, roInit c data = some st0 ∧ roRun c st0 reads = some (st, vs, chks) ∧
      vs.map some = reads.map (fun i => data[i]?) ∧ (∀ chk ∈ chks, chk.Good c) ∧
      (3 ≤ st.list.length → ∃ st' chk, roCheck c st = some (st', chk) ∧ chk.Good c) := by
  have hpos : 0 < data.length := List.length_pos_iff.2 hne
  have h0 := roInitFrom_eq hc data 0 ⟨[], [], [], 0⟩ (by omega) hv
  have hinv : RoInv c data ⟨[] ++ data, [] ++ (roRows 0 data).map (roPacked c), [] ++ roRows 0 data, 0⟩ := by
    constructor
    · simp
    · simp
    · simp only [List.nil_append]
      rw [List.take_of_length_le (by rw [roRows_length])]
    · simp [roRows_length]
    · simp only; omega
    · intro e he
      exact roRows_mem (by simpa using he)
  obtain ⟨st, vs, chks, h1, h2, h3, h4⟩ := roRun_inv hc hd hdd hv reads _ hinv hr
  refine ⟨_, st, vs, chks, h0, h1, h3, h4, ?_⟩
  intro hl
  have hll : st.list.length = st.log.length := by rw [h2.list, List.length_map]
  have hst := h2.step
  have hle := h2.le
  obtain ⟨chk, h5, h6, _⟩ := roCheck_good hc hd hv st h2.mem h2.list h2.vals (by omega) (by omega) (by omega)
  exact ⟨_, chk, h5, h6⟩

/-- Three elements and ten reads. -/
example : ∃ st0 st vs chks, roInit ⟨4, 8⟩ [5, 6, 7] = some st0 ∧
    roRun ⟨4, 8⟩ st0 [0, 1, 2, 2, 2, 2, 1, 1, 0, 0] = some (st, vs, chks) ∧
    vs.map some = [some 5, some 6, some 7, some 7, some 7, some 7, some 6, some 6, some 5, some 5] := by
  obtain ⟨st0, st, vs, chks, h1, h2, h3, _⟩ := C51_honest ⟨4, 8⟩ (by decide) [5, 6, 7] (by simp) (by decide) (by decide)
    (by simp) [0, 1, 2, 2, 2, 2, 1, 1, 0, 0] (by simp)
  exact ⟨st0, st, vs, chks, h1, h2, h3⟩

section
variable {F : Type} [Field F] [BlockField F]

/-- C51 (commitments). The packed MAC and the packed key of a row satisfy the MAC relation on the packed word. -/
theorem C51_packed_mac (c : RoCfg) (hc : c.isz ≤ 64 ∧ c.vsz ≤ 64) (delta : F) (e : RoEnt) (wi wv : Nat) (ki kv : Nat → F)
    (hi : c.isz ≤ wi) (hv : c.vsz ≤ wv) :
    ∃ K, roPackMac c ((List.range wi).map ki) ((List.range wv).map kv) = some K ∧
      roPackMac c (macBits wi e.idx ki delta) (macBits wv e.val kv delta) = some (K + wordF (roPacked c e) * delta) :=
  roPackMac_key hc delta e wi wv ki kv hi hv

example (delta : GF128) (ki kv : Nat → GF128) :
    ∃ K, roPackMac ⟨4, 8⟩ ((List.range 5).map ki) ((List.range 8).map kv) = some K ∧
      roPackMac ⟨4, 8⟩ (macBits 5 3 ki delta) (macBits 8 200 kv delta) = some (K + wordF (roPacked ⟨4, 8⟩ ⟨3, 200⟩) * delta) :=
  C51_packed_mac ⟨4, 8⟩ (by decide) delta ⟨3, 200⟩ 5 8 ki kv (by decide) (by decide)

end

/-- C51 (soundness) is false as stated: as in `C46_false` the extra index bit of the sorted rows is not packed. For all contents,
every address `a` in them and every value `v`, a read of `a` that returns `v` has sorted rows that pass the condition and have the
same packed words. -/
theorem C51_false (c : RoCfg) (data : List Nat) (hd : data.length ≤ 2 ^ c.isz) (a v : Nat) (ha : a < data.length) :
    ∃ S : List RoEnt, (∀ e ∈ S, e.idx < 2 ^ (c.isz + 1)) ∧ roCond c S = true ∧
      (S.map (roPacked c)).Perm ((roRows 0 data ++ [(⟨a, v⟩ : RoEnt)]).map (roPacked c)) := by
  have hp2 : 2 ^ (c.isz + 1) = 2 * 2 ^ c.isz := by rw [pow_succ]; ring
  have hrow : ∀ e ∈ roRows 0 data, e.idx < data.length := by
    intro e he
    exact (List.getElem?_eq_some_iff.1 (roRows_mem he)).1
  refine ⟨⟨2 ^ c.isz + a, v⟩ :: roRows 0 data, ?_, ?_, ?_⟩
  · intro e he
    rcases List.mem_cons.1 he with rfl | he
    · simp only; omega
    · have := hrow e he
      omega
  · have hch : ∀ (l : List Nat) (i : Nat), i + l.length ≤ 2 ^ c.isz → roCond c (roRows i l) = true := by
      intro l
      induction l with
      | nil => intro i _; rfl
      | cons x l ih =>
        intro i hl
        simp only [List.length_cons] at hl
        cases l with
        | nil => rfl
        | cons y l =>
          have := ih (i + 1) (by simp only [List.length_cons] at hl ⊢; omega)
          simp only [List.length_cons] at hl
          rw [roRows, roRows]
          rw [roRows] at this
          rw [roCond, this, Bool.and_true, roCond2, ltW_eq (by simp only; omega) (by simp only; omega)]
          simp
    have hc := hch data 0 (by omega)
    cases data with
    | nil => simp at ha
    | cons x l =>
      simp only [List.length_cons] at hd ha
      have h1 : ltW (c.isz + 1) (2 ^ c.isz + a) 0 = true := by
        unfold ltW
        rw [Nat.sub_zero, Nat.add_mod_right, Nat.mod_eq_of_lt (by omega), Nat.add_sub_cancel, Nat.testBit_two_pow_add_eq,
          Nat.testBit_lt_two_pow (by omega)]
        rfl
      rw [roRows] at hc ⊢
      rw [roCond, hc, Bool.and_true, roCond2]
      simp only [h1, Bool.true_or]
  · have : roPacked c ⟨2 ^ c.isz + a, v⟩ = roPacked c ⟨a, v⟩ := by simp [roPacked]
    rw [List.map_cons, this, List.map_append, List.map_singleton]
    exact List.perm_append_comm (l₁ := [_])

/-- Contents 5, 6 and a read of address 1 that returns 99. -/
example : ∃ S : List RoEnt, (∀ e ∈ S, e.idx < 2 ^ (4 + 1)) ∧ roCond ⟨4, 8⟩ S = true ∧
    (S.map (roPacked ⟨4, 8⟩)).Perm ((roRows 0 [5, 6] ++ [(⟨1, 99⟩ : RoEnt)]).map (roPacked ⟨4, 8⟩)) :=
  C51_false ⟨4, 8⟩ [5, 6] (by decide) 1 99 (by decide)

/-- C51 (soundness, what holds). If the sorted rows have the extra index bit zero, pass the condition, and have the same multiset
of packed words as the rows of `init` and the reads, then every read of an address inside the contents returned the element stored
there, and reads of any one address all returned the same value. Missing from C51 as stated: the extra index bit (`C51_false`);
an address outside the contents has no stored value, and reads of it can return anything, consistently. -/
theorem C51_partial (c : RoCfg) (hc : c.isz ≤ 64 ∧ c.vsz ≤ 64) (data : List Nat) (hd : data.length ≤ 2 ^ c.isz)
    (hv : ∀ v ∈ data, v < 2 ^ c.vsz) (reads S : List RoEnt) (hr : ∀ e ∈ reads, e.idx < 2 ^ c.isz ∧ e.val < 2 ^ c.vsz)
    (hS : ∀ e ∈ S, e.idx < 2 ^ c.isz ∧ e.val < 2 ^ c.vsz) (hcond : roCond c S = true)
    (hperm : (S.map (roPacked c)).Perm ((roRows 0 data ++ reads).map (roPacked c))) :
    (∀ e ∈ reads, ∀ v, data[e.idx]? = some v → e.val = v) ∧
      (∀ e ∈ reads, ∀ f ∈ reads, e.idx = f.idx → e.val = f.val) := by
  have hfit : ∀ e ∈ roRows 0 data ++ reads, e.Fits c := by
    intro e he
    rcases List.mem_append.1 he with he | he
    · have := roRows_mem he
      obtain ⟨h1, h2⟩ := List.getElem?_eq_some_iff.1 this
      refine ⟨by omega, ?_⟩
      rw [← h2]
      exact hv _ (List.getElem_mem _)
    · exact hr e he
  have hp : S.Perm (roRows 0 data ++ reads) :=
    perm_of_leftInv _ (roUnpackU c) (fun e he => roUnpack_pack hc (hS e he)) (fun e he => roUnpack_pack hc (hfit e he)) hperm
  have hpw := (roCond_iff S (fun e he => (hS e he).1)).1 hcond
  refine ⟨?_, ?_⟩
  · intro e he v hev
    have hm : (⟨e.idx, v⟩ : RoEnt) ∈ roRows 0 data := by
      have := roRows_getElem data 0 e.idx
      rw [hev] at this
      simp only [Option.map_some, Nat.zero_add] at this
      exact List.mem_of_getElem? this
    exact le_pairwise_val hpw (hp.mem_iff.2 (by simp [he])) (hp.mem_iff.2 (List.mem_append_left _ hm)) rfl
  · intro e he f hf hidx
    exact le_pairwise_val hpw (hp.mem_iff.2 (by simp [he])) (hp.mem_iff.2 (by simp [hf])) hidx

example : ∀ e ∈ [(⟨1, 6⟩ : RoEnt), ⟨0, 5⟩], ∀ v, [5, 6][e.idx]? = some v → e.val = v :=
  (C51_partial ⟨4, 8⟩ (by decide) [5, 6] (by decide) (by simp) [⟨1, 6⟩, ⟨0, 5⟩] [⟨0, 5⟩, ⟨0, 5⟩, ⟨1, 6⟩, ⟨1, 6⟩] (by simp) (by simp)
    (by decide) (by decide)).1

section
variable {F : Type} [Field F] [PackField F] [DecidableEq F] [Fintype F]

open Classical in
/-- C51 (through the comparison of products). A wrong read inside the contents, sorted rows with extra index bits zero that pass the
condition: the comparison is passed with right gates for at most `(n + 1) * |F|` of the pairs (challenge, `Delta`), whatever the
prover commits and sends. -/
theorem C51_protocol (c : RoCfg) (hc : c.isz ≤ 64 ∧ c.vsz ≤ 64) (data : List Nat) (hd : data.length ≤ 2 ^ c.isz)
    (hv : ∀ v ∈ data, v < 2 ^ c.vsz) (reads S : List RoEnt) (hr : ∀ e ∈ reads, e.idx < 2 ^ c.isz ∧ e.val < 2 ^ c.vsz)
    (hS : ∀ e ∈ S, e.idx < 2 ^ c.isz ∧ e.val < 2 ^ c.vsz) (hcond : roCond c S = true) (n : Nat) (h3 : 3 ≤ n) (h64 : n < 2 ^ 64)
    (hn : data.length + reads.length = n) (hSn : S.length = n)
    (hwrong : ∃ e ∈ reads, ∃ v, data[e.idx]? = some v ∧ e.val ≠ v)
    (xs ys : List (F × F)) (hx : xs.map Prod.fst = S.map (fun e => wordF (roPacked c e)))
    (hy : ys.map Prod.fst = (roRows 0 data ++ reads).map (fun e => wordF (roPacked c e)))
    (outs0 outs1 : F → Nat → F × F) (msg : F → F × F) :
    (Finset.univ.filter (fun q : F × F => ∃ g0 f0 g1 f1 ks0 ks1,
      productPrv false (bchGroups 4 xs.length xs.length) q.1 xs (outs0 q.1) = some (g0, f0) ∧ (∀ g ∈ g0, g.Ok) ∧
      productPrv false (bchGroups 4 ys.length ys.length) q.1 ys (outs1 q.1) = some (g1, f1) ∧ (∀ g ∈ g1, g.Ok) ∧
      productVer false (bchGroups 4 xs.length xs.length) q.2 q.1 (xs.map (keyF q.2)) (fun i => keyF q.2 (outs0 q.1 i)) =
        some ks0 ∧
      productVer false (bchGroups 4 ys.length ys.length) q.2 q.1 (ys.map (keyF q.2)) (fun i => keyF q.2 (outs1 q.1 i)) =
        some ks1 ∧
      setEqVer ks0.2 ks1.2 (msg q.1).1 (msg q.1).2 = true)).card ≤ (n + 1) * Fintype.card F := by
  have hxl : xs.length = n := by
    rw [← List.length_map (f := Prod.fst) (as := xs), hx, List.length_map, hSn]
  have hyl : ys.length = n := by
    rw [← List.length_map (f := Prod.fst) (as := ys), hy, List.length_map, List.length_append, roRows_length, hn]
  have h := C47_sound (F := F) false 4 (by decide) xs ys
    (by intro h0; rw [h0] at hxl; simp at hxl; omega) (by omega) (by omega) (by omega)
    (by
      intro hp
      rw [hx, hy] at hp
      have hp' : ((S.map (roPacked c)).map (wordF (F := F))).Perm (((roRows 0 data ++ reads).map (roPacked c)).map wordF) := by
        rw [List.map_map, List.map_map]; exact hp
      have hlt : ∀ l : List RoEnt, ∀ a ∈ l.map (roPacked c), a < 2 ^ 128 := by
        intro l a ha
        obtain ⟨e, _, rfl⟩ := List.mem_map.1 ha
        exact roPacked_lt hc e
      obtain ⟨e, he, v, h1, h2⟩ := hwrong
      exact h2 ((C51_partial c hc data hd hv reads S hr hS hcond (perm_wordF (hlt S) (hlt _) hp')).1 e he v h1))
    outs0 outs1 msg
  rw [hxl] at h ⊢
  exact h

end

/-- The hypotheses of `C51_protocol` can be met. -/
example : roCond ⟨4, 8⟩ [⟨0, 5⟩, ⟨1, 99⟩, ⟨1, 99⟩] = true ∧ ∃ e ∈ [(⟨1, 99⟩ : RoEnt)], ∃ v, [5, 6][e.idx]? = some v ∧ e.val ≠ v :=
  ⟨by decide, ⟨1, 99⟩, by simp, 6, rfl, by decide⟩

end EmpZk
