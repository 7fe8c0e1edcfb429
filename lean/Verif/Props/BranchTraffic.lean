/-
C109 for programs that look at revealed bits and choose what to do next.
-/
import Verif.Lemmas.BranchTraffic
import Verif.Lemmas.BranchRamTraffic
import Verif.Lemmas.Traffic
import Verif.Props.Traffic

namespace EmpZk

section
variable {F : Type} [Field F] [BlockField F]

/-- Two branching programs for two witnesses that reveal the same bits: whatever their correlations, secrets, challenges and hash functions, and
whatever the other party sends, the provers put pieces of the same sizes on the wire. -/
theorem C109_branching {me me' : MixEnv F} (hm : me.Same me') (S : Nat) {t t' : SessTree} (ht : t.Opens t') (got : List (List Byte)) :
    trafficOf S (branchProver me t) got = trafficOf S (branchProver me' t') got :=
  alike_traffic S (branchProver_alike hm ht) got rfl

/-- The same over the network (see `C109_network`). -/
theorem C109_branching_network {me me' : MixEnv F} (hm : me.Same me') {S : Nat} (hS : 0 < S) {t t' : SessTree} (ht : t.Opens t') {β β' : Type}
    {q : RProg β} {q' : RProg β'} {junk junk' : List Byte} {l l' : List Nat} {c : PNet (MPrv F) β} {c' : PNet (MPrv F) β'}
    (hc : PSent S (pnetInit S junk (branchProver me t) q) l c) (hc' : PSent S (pnetInit S junk' (branchProver me' t') q') l' c')
    (hg : c.snd.got <+: c'.snd.got) :
    (l <+: l' ∨ l' <+: l) ∧
    (c.snd.got = c'.snd.got → ∀ P, c.p = .done P → (∀ P', c'.p = .done P' → l = l') ∧ c'.p ≠ .fail ∧ c'.p ≠ .stop) :=
  traffic_network hS (C109_branching hm S ht) hc hc' hg

/-- A branching program with a memory: two witnesses that reveal the same bits, whatever addresses they access and whatever they write, make the
prover put pieces of the same sizes on the wire. -/
theorem C109_branching_memory {me me' : MixEnv F} (hm : me.Same me') (S : Nat) {lib : CmpLib} (hl : lib.Good) {c : RamCfg}
    (hc : c.isz + c.ssz + 1 ≤ 64 ∧ 1 ≤ c.isz ∧ c.vsz ≤ 64) {t t' : RamTree} (ht : t.Opens c t') (got : List (List Byte)) :
    trafficOf S (branchProver me (ramTreeGen lib c ⟨[], [], []⟩ t)) got =
      trafficOf S (branchProver me' (ramTreeGen lib c ⟨[], [], []⟩ t')) got := by
  classical
  exact C109_branching hm S (ramTree_opens F hl hc ht rfl rfl) got

end

/-- A program that reveals whether two bits differ; if so it goes on with five more inputs, and a product that is revealed. -/
def exOpenTree (a b : Bool) : SessTree := .ops [.input a, .input b, .xor 0 1, .reveal 2]
  (fun o => match o with
    | [true] => .ops [.and 0 1, .reveal 3, .input a, .input a, .input b, .input b, .input a]
        (fun _ => .fin (.ops [.pack [0, 1], .mul 0 0, .bool (.reveal 2)] (fun _ => .fin (.ops [.reveal 2] (fun _ => .fin ())))))
    | _ => .fin (.fin (.fin ())))

theorem exOpenTree_opens : (exOpenTree true false).Opens (exOpenTree false true) := by
  refine Branch.Opens.ops (q := (⟨[true, false, true], [true], []⟩ : Plain)) (q' := (⟨[false, true, true], [true], []⟩ : Plain)) rfl rfl rfl rfl ?_
  refine Branch.Opens.ops (q := (⟨[true, false, true, false, true, true, false, false, true], [true, false], []⟩ : Plain))
    (q' := (⟨[false, true, true, false, false, false, true, true, false], [true, false], []⟩ : Plain)) rfl rfl rfl rfl (.fin ?_)
  refine Branch.Opens.ops (q := (⟨[true, false, true, false, true, true, false, false, true], [true, false, true], []⟩ : Plain))
    (q' := (⟨[false, true, true, false, false, false, true, true, false], [true, false, true], []⟩ : Plain)) rfl rfl rfl rfl (.fin ?_)
  exact Branch.Opens.ops (q := (⟨[true, false, true, false, true, true, false, false, true], [true, false, true, true], []⟩ : Plain))
    (q' := (⟨[false, true, true, false, false, false, true, true, false], [true, false, true, true], []⟩ : Plain)) rfl rfl rfl rfl (.fin trivial)

example (got : List (List Byte)) : trafficOf 32768 (branchProver exMix (exOpenTree true false)) got =
    trafficOf 32768 (branchProver exOther (exOpenTree false true)) got := C109_branching exOther_same 32768 exOpenTree_opens got

/-- A program that writes to two cells, reads one of them, reveals a bit of what it has read, and if that is set reads the other one. -/
def exSeek (a b c : Bool) : RamTree := .ops [.input a, .input b, .input c, .pub true] (fun _ =>
  .fin (.ops [.write [0, 1] [3, 2], .write [1, 0] [3, 0], .read [0, 1], .bool (.reveal 12)] (fun o =>
    if o = [true] then .ops [.read [1, 0]] (fun _ => .fin (.ops [.reveal 3] (fun _ => .fin ()))) else .fin (.fin ()))))

theorem exSeek_opens : (exSeek true false true).Opens exRam (exSeek false true false) := by
  refine Branch.Opens.ops (q := (⟨[true, false, true, true], [], []⟩ : Plain)) (q' := (⟨[false, true, false, true], [], []⟩ : Plain)) rfl rfl rfl rfl
    (.fin ?_)
  refine Branch.Opens.ops (q := (⟨⟨[true, false, true, true, false, false, false, true, true, false, false, true, true, true, false, true, false,
      false], [true], []⟩, [⟨1, true, 3⟩, ⟨2, true, 3⟩, ⟨1, false, 3⟩]⟩ : UPlain))
    (q' := (⟨⟨[false, true, false, true, false, false, false, true, true, false, false, true, true, false, false, true, false, false], [true], []⟩,
      [⟨2, true, 1⟩, ⟨1, true, 1⟩, ⟨2, false, 1⟩]⟩ : UPlain)) rfl rfl rfl rfl ?_
  refine Branch.Opens.ops (q := (⟨⟨[true, false, true, true, false, false, false, true, true, false, false, true, true, true, false, true, false,
      false, true, true, true, true, false, false], [true], []⟩, [⟨1, true, 3⟩, ⟨2, true, 3⟩, ⟨1, false, 3⟩, ⟨2, false, 3⟩]⟩ : UPlain))
    (q' := (⟨⟨[false, true, false, true, false, false, false, true, true, false, false, true, true, false, false, true, false, false, true, false,
      true, true, false, false], [true], []⟩, [⟨2, true, 1⟩, ⟨1, true, 1⟩, ⟨2, false, 1⟩, ⟨1, false, 1⟩]⟩ : UPlain)) rfl rfl rfl rfl (.fin ?_)
  have wf (x y v w : Nat) : WrittenFirst [⟨x, true, v⟩, ⟨y, true, w⟩, ⟨x, false, v⟩, (⟨y, false, w⟩ : Acc Nat)] := by
    intro i e h he
    match i, h with
    | 0, h | 1, h => cases h; cases he
    | 2, h => cases h; by_cases hx : y = x <;> simp [lastWrite, hx]
    | 3, h => cases h; simp [lastWrite]
  refine ⟨⟨by decide, by decide, wf 1 2 3 3⟩, ⟨by decide, by decide, wf 2 1 1 1⟩, fun w w' _ => ?_⟩
  exact Branch.Opens.ops rfl rfl rfl rfl (.fin trivial)

/-- The first witness accesses cells 1, 2, 1, 2 and has the value 3 in both; the second one accesses 2, 1, 2, 1 and has the value 1. -/
example (got : List (List Byte)) : trafficOf 32768 (branchProver exMix (ramTreeGen empLib exRam ⟨[], [], []⟩ (exSeek true false true))) got =
    trafficOf 32768 (branchProver exOther (ramTreeGen empLib exRam ⟨[], [], []⟩ (exSeek false true false))) got :=
  C109_branching_memory exOther_same 32768 C97_circuits ⟨by decide, by decide, by decide⟩ exSeek_opens got

/-- A program that reveals a bit and takes four more inputs if it is set. -/
def exMoreTree (b : Bool) : SessTree := .ops [.input b, .reveal 0]
  (fun o => match o with
    | [true] => .ops [.input b, .input b, .input b, .input b] (fun _ => .fin (.fin (.fin ())))
    | _ => .fin (.fin (.fin ())))

/-- That the same bits are revealed is needed: this program has another traffic for another bit, after the first answer. -/
example : trafficOf 8 (branchProver exMix (exMoreTree true)) [[0, 0, 0]] = ([2, 3], .waiting) ∧
    trafficOf 8 (branchProver exMix (exMoreTree false)) [[0, 0, 0]] = ([2, 1], .waiting) := by
  refine ⟨rfl, rfl⟩

end EmpZk
