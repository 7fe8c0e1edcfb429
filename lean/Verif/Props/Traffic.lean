/-
C109: sizes and pieces of the prover's messages, and whether it returns, are the same for all witnesses, correlations, keys and challenges; in
particular the messages of a program with a memory do not show by their sizes which addresses are read or written.
-/
import Verif.Lemmas.Traffic
import Verif.Lemmas.MixTraffic
import Verif.Lemmas.RamTraffic
import Verif.Lemmas.ConvTraffic
import Verif.Props.RamNet
import Verif.Props.ConvNet

namespace EmpZk

section
variable {F : Type} [Field F] [BlockField F]

/-- Two provers of one program with other inputs, correlations, secrets and hash functions: when the bytes of the verifier are the same, they put
pieces of the same sizes on the wire and end in the same way. -/
theorem C109_traffic {me me' : MixEnv F} (hm : me.Same me') (S : Nat) {pre pre' post post' : List BOp} {ops ops' : List MOp}
    (h1 : pre.map BOp.erase = pre'.map BOp.erase) (h2 : ops.map MOp.erase = ops'.map MOp.erase)
    (h3 : post.map BOp.erase = post'.map BOp.erase) (got : List (List Byte)) :
    trafficOf S (mixProver me pre ops post) got = trafficOf S (mixProver me' pre' ops' post') got :=
  alike_traffic S (mixProver_alike hm h1 h2 h3) got rfl

/-- In two runs over the network, with any verifiers and under any schedules: if the second prover has received what the first one has received
and possibly more, then the sizes of the pieces one of them has sent continue those of the other; if both have received the same and
have returned, the sizes are equal, and neither can have failed where the other returned. -/
theorem C109_network {me me' : MixEnv F} (hm : me.Same me') {S : Nat} (hS : 0 < S) {pre pre' post post' : List BOp} {ops ops' : List MOp}
    (h1 : pre.map BOp.erase = pre'.map BOp.erase) (h2 : ops.map MOp.erase = ops'.map MOp.erase)
    (h3 : post.map BOp.erase = post'.map BOp.erase) {β β' : Type} {q : RProg β} {q' : RProg β'} {junk junk' : List Byte} {l l' : List Nat}
    {c : PNet (MPrv F) β} {c' : PNet (MPrv F) β'} (hc : PSent S (pnetInit S junk (mixProver me pre ops post) q) l c)
    (hc' : PSent S (pnetInit S junk' (mixProver me' pre' ops' post') q') l' c') (hg : c.snd.got <+: c'.snd.got) :
    (l <+: l' ∨ l' <+: l) ∧
    (c.snd.got = c'.snd.got → ∀ P, c.p = .done P → (∀ P', c'.p = .done P' → l = l') ∧ c'.p ≠ .fail ∧ c'.p ≠ .stop) :=
  traffic_network hS (C109_traffic hm S h1 h2 h3) hc hc' hg

/-- A program with a memory: for other values in the wires before and other inputs, hence other addresses, contents and directions of its
accesses, the traffic is the same. -/
theorem C109_memory {me me' : MixEnv F} (hm : me.Same me') (S : Nat) (lib : CmpLib) (c : RamCfg) {pre pre' post post' : List BOp}
    (h1 : pre.map BOp.erase = pre'.map BOp.erase) (h3 : post.map BOp.erase = post'.map BOp.erase) {bits bits' : List Bool}
    (hb : bits.length = bits'.length) {us us' : List UOp} (hu : us.map UOp.erase = us'.map UOp.erase) {ops ops' : List MOp}
    (hg : ramGen lib c bits us = some ops) (hg' : ramGen lib c bits' us' = some ops') (got : List (List Byte)) :
    trafficOf S (mixProver me pre ops post) got = trafficOf S (mixProver me' pre' ops' post') got :=
  C109_traffic hm S h1 (ramGen_both lib c hb hu ops ops' hg hg') h3 got

/-- The same for a read-only memory, also with its automatic checks. -/
theorem C109_readonly {me me' : MixEnv F} (hm : me.Same me') (S : Nat) (lib : CmpLib) (c : RoCfg) {pre pre' post post' : List BOp}
    (h1 : pre.map BOp.erase = pre'.map BOp.erase) (h3 : post.map BOp.erase = post'.map BOp.erase) {bits bits' : List Bool}
    (hb : bits.length = bits'.length) (data : List (List Nat)) {us us' : List VOp} (hu : us.map VOp.erase = us'.map VOp.erase)
    {r r' : List MOp × List BOp} (hg : roProg lib c bits data us post = some r) (hg' : roProg lib c bits' data us' post' = some r')
    (got : List (List Byte)) :
    trafficOf S (mixProver me pre r.1 r.2) got = trafficOf S (mixProver me' pre' r'.1 r'.2) got :=
  C109_traffic hm S h1 (roProg_both lib c hb data hu h3 r r' hg hg').1 (roProg_both lib c hb data hu h3 r r' hg hg').2 got

/-- The same for a memory of several words per cell. -/
theorem C109_wide {me me' : MixEnv F} (hm : me.Same me') (S : Nat) (lib : CmpLib) (c : RxCfg) {pre pre' post post' : List BOp}
    (h1 : pre.map BOp.erase = pre'.map BOp.erase) (h3 : post.map BOp.erase = post'.map BOp.erase) {bits bits' : List Bool}
    (hb : bits.length = bits'.length) {us us' : List XOp} (hu : us.map XOp.erase = us'.map XOp.erase) {ops ops' : List MOp}
    (hg : extGen lib c bits us = some ops) (hg' : extGen lib c bits' us' = some ops') (got : List (List Byte)) :
    trafficOf S (mixProver me pre ops post) got = trafficOf S (mixProver me' pre' ops' post') got :=
  C109_traffic hm S h1 (extGen_both lib c hb hu ops ops' hg hg') h3 got

/-- A program of bits, field elements and conversions between them: for other inputs, correlations, secrets, challenges and edaBits the traffic
is the same. -/
theorem C109_conversions {ce ce' : ConvEnv F} (hc : ce.Same ce') (S : Nat) {ops ops' : List COp}
    (ho : ops.map COp.erase = ops'.map COp.erase) (got : List (List Byte)) :
    trafficOf S (convProver ce ops) got = trafficOf S (convProver ce' ops') got :=
  alike_traffic S (convProver_alike hc (fun _ _ h => .inl (congrArg leVal h)) ho) got rfl

/-- The same over the network (see `C109_network`). -/
theorem C109_conversions_network {ce ce' : ConvEnv F} (hc : ce.Same ce') {S : Nat} (hS : 0 < S) {ops ops' : List COp}
    (ho : ops.map COp.erase = ops'.map COp.erase) {β β' : Type} {q : RProg β} {q' : RProg β'} {junk junk' : List Byte} {l l' : List Nat}
    {c : PNet (CPrv F) β} {c' : PNet (CPrv F) β'} (h : PSent S (pnetInit S junk (convProver ce ops) q) l c)
    (h' : PSent S (pnetInit S junk' (convProver ce' ops') q') l' c') (hg : c.snd.got <+: c'.snd.got) :
    (l <+: l' ∨ l' <+: l) ∧
    (c.snd.got = c'.snd.got → ∀ P, c.p = .done P → (∀ P', c'.p = .done P' → l = l') ∧ c'.p ≠ .fail ∧ c'.p ≠ .stop) :=
  traffic_network hS (C109_conversions hc S ho) h h' hg

end

/-! ### a concrete pair of sessions -/

/-- `exMix` with other bits of the prover, other blocks and another `Delta`. -/
noncomputable def exOther : MixEnv GF128 :=
  { exMix with ne := { exNet with e := { exEnv with choice := fun n => !exEnv.choice n, key := fun n => exEnv.key (n + 1), delta := 1 },
                                  seeds := fun _ _ => gX }
               blk := fun _ => 1, auth := fun _ => [(1, 1), (gX, gX), (0, 1)] }

theorem exOther_same : exMix.Same exOther where
  ne := ⟨rfl, rfl, rfl, fun _ _ => rfl, exNet_good.enc_length, exNet_good.enc_length, exNet_good.encD_length, exNet_good.encD_length⟩
  sz := rfl
  cap := rfl
  auth := fun _ => rfl
  sv := fun _ => rfl
  svN := fun _ => rfl
  lo := exMix_good.lo
  lo' := exMix_good.lo
  hi := exMix_good.hi
  hi' := exMix_good.hi

theorem exUs_other : ∃ u, uplainOps exRam ⟨⟨[true, true, false, true], [], []⟩, []⟩ exUs = some u ∧
    u.log = [⟨3, true, 1⟩, ⟨3, true, 3⟩, ⟨3, false, 3⟩, ⟨3, true, 0⟩] := ⟨_, rfl, rfl⟩

/-- The program of `Props/RamNet.lean` for two witnesses: the first one writes to cells 1 and 2, the second one to cell 3 only, and other
values; the access is a read for the first one and a write for the second one. The traffic is the same; before the verifier's first answer
it is one piece of two bytes. -/
example : ∃ ops ops', ramGen empLib exRam [true, false, true, false] exUs = some ops ∧
    ramGen empLib exRam [true, true, false, true] exUs = some ops' ∧
    (∀ got, trafficOf 32768 (mixProver exMix [.input true, .input false, .input true, .input false] ops []) got =
      trafficOf 32768 (mixProver exOther [.input true, .input true, .input false, .input true] ops' []) got) ∧
    (trafficOf 32768 (mixProver exMix [.input true, .input false, .input true, .input false] ops []) []) = ([2], .waiting) := by
  obtain ⟨u, hu, _, _, hlog⟩ := exUs_plain
  obtain ⟨u', hu', hlog'⟩ := exUs_other
  obtain ⟨ops, _, _, _, h1, _⟩ := ram_session exMix exMix_good (by decide) (by decide) (by decide) (by decide) (S := 32768) (by decide)
    C97_circuits (c := exRam) ⟨by decide, by decide, by decide⟩ [.input true, .input false, .input true, .input false] exUs []
    (b0 := ⟨[true, false, true, false], [], []⟩) rfl hu (by rw [hlog]; decide) (by rw [hlog]; decide)
  obtain ⟨ops', _, _, _, h2, _⟩ := ram_session exMix exMix_good (by decide) (by decide) (by decide) (by decide) (S := 32768) (by decide)
    C97_circuits (c := exRam) ⟨by decide, by decide, by decide⟩ [.input true, .input true, .input false, .input true] exUs []
    (b0 := ⟨[true, true, false, true], [], []⟩) rfl hu' (by rw [hlog']; decide) (by rw [hlog']; decide)
  exact ⟨ops, ops', h1, h2, fun got => C109_memory exOther_same 32768 empLib exRam
    (pre := [.input true, .input false, .input true, .input false]) (pre' := [.input true, .input true, .input false, .input true])
    (post := []) (post' := []) rfl rfl (bits := [true, false, true, false]) (bits' := [true, true, false, true]) rfl rfl h1 h2 got, rfl⟩

/-- Programs of other lengths are told apart: after the first answer a program without inputs and one with an input that is opened. -/
example : (trafficOf 8 (.call (.bit true) (fun _ => .call .flush (fun _ => .done ()))) []).1 = [1] ∧
    (trafficOf 8 (.call .flush (fun _ => .done ())) []).1 = [] ∧
    (trafficOf 8 (.call (.back 1) (fun g => if g = [1#8] then .done () else .stop)) [[1#8]]).2 = .returned ∧
    (trafficOf 8 (.call (.back 1) (fun g => if g = [1#8] then .done () else .stop)) [[2#8]]).2 = .stopped := by
  refine ⟨rfl, rfl, rfl, rfl⟩

/-- `exConv` with other edaBits, seeds and digests. -/
noncomputable def exConvOther : ConvEnv GF128 :=
  { exConv with ne := exOther.ne, base := { exEnvA with u := fun _ => 1, delta := 5 }, seed0 := fun _ => 1,
                candA := fun k => List.replicate 11 (makeBlock (BitVec.ofNat 64 (k + 8)) 1), dig := fun _ => List.replicate 32 7#8 }

theorem exConvOther_same : exConv.Same exConvOther where
  ne := exOther_same.ne
  threads := rfl
  checkSz := rfl
  polySz := rfl
  av := fun _ _ => rfl
  cfg := rfl
  npSz := rfl
  cand := fun k => by
    show (List.replicate 11 (makeBlock 3 22)).length = (List.replicate 11 (makeBlock (BitVec.ofNat 64 (k + 8)) 1)).length
    rw [List.length_replicate, List.length_replicate]
  ed := fun _ _ => rfl
  dig := exConv_good.dig
  dig' := fun _ => by
    show (List.replicate 32 7#8).length = 32
    rw [List.length_replicate]
  sum := rfl
  diff := rfl

/-- The program of `Props/ConvNet.lean` converts 5 with 7 as further input; here 9 with 1. -/
def exConvProgOther : List COp := (bits62 9).map (fun b => .bool (.input b)) ++
  [.b2a (List.range 62), .arith (.input 1), .arith (.mul 0 1), .a2b 2, .bool (.and 62 63), .bool (.reveal 124), .sync,
   .b2aN [(List.range 62).map (62 + ·), List.range 62], .a2bN [2, 0, 1], .bool (.reveal 128), .arith (.reveal 3)]

example (got : List (List Byte)) : trafficOf 32768 (convProver exConv exConvProg) got = trafficOf 32768 (convProver exConvOther exConvProgOther) got :=
  C109_conversions exConvOther_same 32768 (by simp [exConvProg, exConvProgOther, bits62, COp.erase, BOp.erase, AOp.erase, Function.comp_def]) got

end EmpZk
