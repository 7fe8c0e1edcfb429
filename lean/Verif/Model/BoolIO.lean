/-
emp-zk/emp-zk-bool/bool_io.h: a channel carrying single bits (buffered in blocks of `S = NETWORK_BUFFER_SIZE2`
booleans, packed, hashed) and bytes.  The two endpoints run concurrently over two FIFO byte streams.
Not modelled: the underlying `IO` object (external; it is taken to be a reliable FIFO whose buffers are pushed out when an
endpoint waits), the byte counter (lines 99, 104).  A digest is represented by the list of bytes hashed since the last
digest (`Hash` is external; `digest` starts a fresh hash).
-/
namespace EmpZk

/-- A byte on the wire (bool_io.h:13 `tmp_arr`). -/
abbrev Byte := BitVec 8

/-- bool_io.h:84,123: the mask `0x0101010101010101`. -/
def boolMask : BitVec 64 := 0x0101010101010101#64

/-- bool_io.h:81,119: the 64-bit word formed by eight consecutive booleans in memory (little endian, one byte each). -/
def boolsWord (b0 b1 b2 b3 b4 b5 b6 b7 : Bool) : BitVec 64 :=
  [b0, b1, b2, b3, b4, b5, b6, b7].foldr (fun b w => (w <<< 8) ||| (if b then 1#64 else 0#64)) 0#64

/-- bool_io.h:90-95 (portable branch): loop over the set bits of `mask`, lowest first; `n` bounds the iterations. -/
def pextLoop (data : BitVec 64) : Nat → BitVec 64 → BitVec 64 → BitVec 64 → BitVec 64
  | 0, _, _, tmp => tmp
  | n + 1, mask, bb, tmp =>
    if mask = 0#64 then tmp
    else pextLoop data n (mask &&& (mask - 1#64)) (bb + bb)
      (if data &&& mask &&& (-mask) ≠ 0#64 then tmp ||| bb else tmp)

/-- bool_io.h:87 `_pext_u64` (instruction, external): collects the bits of `data` at the set positions of `mask`,
scanning positions `i ..< i+n`; `k` is the next output position. -/
def pextU64 (data mask : BitVec 64) : Nat → Nat → Nat → BitVec 64
  | 0, _, _ => 0#64
  | n + 1, i, k =>
    if mask.getLsbD i then
      (if data.getLsbD i then BitVec.twoPow 64 k else 0#64) ||| pextU64 data mask n (i + 1) (k + 1)
    else pextU64 data mask n (i + 1) k

/-- bool_io.h:130-135 (portable branch): loop over the set bits of `mask`, lowest first. -/
def pdepLoop (tmp : BitVec 64) : Nat → BitVec 64 → BitVec 64 → BitVec 64 → BitVec 64
  | 0, _, _, out => out
  | n + 1, mask, bb, out =>
    if mask = 0#64 then out
    else pdepLoop tmp n (mask &&& (mask - 1#64)) (bb + bb)
      (if tmp &&& bb ≠ 0#64 then out ||| (mask &&& (-mask)) else out)

/-- bool_io.h:127 `_pdep_u64` (instruction, external): spreads the low bits of `tmp` to the set positions of `mask`. -/
def pdepU64 (tmp mask : BitVec 64) : Nat → Nat → Nat → BitVec 64
  | 0, _, _ => 0#64
  | n + 1, i, k =>
    if mask.getLsbD i then
      (if tmp.getLsbD k then BitVec.twoPow 64 i else 0#64) ||| pdepU64 tmp mask n (i + 1) (k + 1)
    else pdepU64 tmp mask n (i + 1) k

/-- bool_io.h:83-98: one packed byte (`tmp_arr[cnt] = tmp` truncates to a byte). -/
def packByte (b0 b1 b2 b3 b4 b5 b6 b7 : Bool) : Byte :=
  (pextU64 (boolsWord b0 b1 b2 b3 b4 b5 b6 b7) boolMask 64 0 0).setWidth 8

/-- bool_io.h:122-136: the eight booleans written for one received byte: byte `j` of the spread word. -/
def unpackByte (c : Byte) (j : Nat) : Byte :=
  ((pdepU64 (c.setWidth 64) boolMask 64 0 0) >>> (8 * j)).setWidth 8

/-- Outcome of a receiving operation: value, not enough bytes yet (the call waits), or undefined behaviour (bool_io.h:54-62, 110-140). -/
inductive RecvRes (α : Type) where
  | ok (a : α)
  | blocked
  | ub

/-- A byte of memory read as `bool` (bool_io.h:59): any other value than 0 and 1 is undefined behaviour. -/
def byteBool (c : Byte) : Option Bool := if c = 0#8 then some false else if c = 1#8 then some true else none

/-- A `bool` as a byte of memory (`buf` is an array of `bool`, read as bytes at bool_io.h:81, 105). -/
def boolByte (b : Bool) : Byte := if b then 1#8 else 0#8

/-- bool_io.h:76-109 `send_bool_raw`: bytes sent (and hashed): one per eight booleans, then one per remaining boolean. -/
def encBools : List Bool → List Byte
  | b0 :: b1 :: b2 :: b3 :: b4 :: b5 :: b6 :: b7 :: rest => packByte b0 b1 b2 b3 b4 b5 b6 b7 :: encBools rest
  | rest => rest.map boolByte

/-- bool_io.h:110-140 `recv_bool_raw`: number of bytes read for `length` booleans. -/
def encLen (length : Nat) : Nat := length / 8 + length % 8

/-- bool_io.h:115-139: memory contents (as bytes) of the `length` booleans written, from the received bytes. -/
def decBytes : Nat → List Byte → List Byte
  | n + 8, c :: w =>
    unpackByte c 0 :: unpackByte c 1 :: unpackByte c 2 :: unpackByte c 3 ::
    unpackByte c 4 :: unpackByte c 5 :: unpackByte c 6 :: unpackByte c 7 :: decBytes n w
  | _, w => w

/-! ### sender -/

/-- The endpoint constructed with `sender = true` (bool_io.h:8-21).  `buf` is `buf[0 .. ptr)`; `hashed` the bytes put in
the hash since the last digest; `digests` the digests taken; `got` the byte strings received. -/
structure SndSt where
  buf : List Bool
  hashed : List Byte
  digests : List (List Byte)
  got : List (List Byte)
  deriving DecidableEq

/-- bool_io.h:45-52 `send_bit`: new state and bytes sent. -/
def sendBit (S : Nat) (s : SndSt) (b : Bool) : SndSt × List Byte :=
  let buf := s.buf ++ [b]
  if buf.length = S then ({ s with buf := [], hashed := s.hashed ++ encBools buf }, encBools buf)
  else ({ s with buf := buf }, [])

/-- bool_io.h:28-32: the padding loop `while (ptr != 0) send_bit(true)`; `n` bounds the iterations. -/
def padLoop (S : Nat) : Nat → SndSt → SndSt × List Byte
  | 0, s => (s, [])
  | n + 1, s =>
    if s.buf = [] then (s, [])
    else
      let (s1, w1) := sendBit S s true
      let (s2, w2) := padLoop S n s1
      (s2, w1 ++ w2)

/-- bool_io.h:26-37 `flush` on the sender (the loop runs at most `S` times). -/
def sndFlush (S : Nat) (s : SndSt) : SndSt × List Byte := padLoop S S s

/-! ### receiver -/

/-- The endpoint constructed with `sender = false`.  `arr` is the memory of `buf`, as bytes (bool_io.h:8-21). -/
structure RcvSt where
  arr : List Byte
  ptr : Nat
  hashed : List Byte
  digests : List (List Byte)
  bits : List Bool
  datas : List (List Byte)
  deriving DecidableEq

/-- bool_io.h:55-58: refill an exhausted buffer. -/
def rcvFill (S : Nat) (r : RcvSt) (w : List Byte) : RecvRes (RcvSt × List Byte) :=
  if r.ptr = S then
    if w.length < encLen S then .blocked
    else .ok ({ r with arr := decBytes S (w.take (encLen S)), ptr := 0,
                       hashed := r.hashed ++ w.take (encLen S) }, w.drop (encLen S))
  else .ok (r, w)

/-- bool_io.h:59-61: read the next boolean of the buffer (outside the array or not a boolean: undefined behaviour). -/
def rcvTake (r : RcvSt) : RecvRes RcvSt :=
  match r.arr[r.ptr]? with
  | none => .ub
  | some c =>
    match byteBool c with
    | none => .ub
    | some b => .ok { r with ptr := r.ptr + 1, bits := r.bits ++ [b] }

/-- bool_io.h:34 `flush` on the receiver. -/
def rcvFlush (S : Nat) (r : RcvSt) : RcvSt := { r with ptr := S }

/-! ### programs -/

/-- Calls made on the sending endpoint (bool_io.h:26-52, 64-74). -/
inductive SOp where
  | bit (b : Bool)
  | flush
  | data (bs : List Byte)
  | back (n : Nat)
  | hash
  deriving DecidableEq

/-- Calls made on the receiving endpoint (bool_io.h:26-43, 54-74). -/
inductive ROp where
  | bit
  | flush
  | data (n : Nat)
  | back (bs : List Byte)
  | hash
  deriving DecidableEq

/-- Mirrored calls: what one end sends the other receives, with the same non-zero lengths; `flush` and the challenge derivation on
both ends (bool_io.h:26-74). -/
def Mirror : SOp → ROp → Prop
  | .bit _, .bit => True
  | .flush, .flush => True
  | .data bs, .data n => bs.length = n ∧ 0 < n
  | .back n, .back bs => bs.length = n ∧ 0 < n
  | .hash, .hash => True
  | _, _ => False

/-- Both endpoints, their remaining programs, and the bytes in transit in both directions (bool_io.h:6-21). -/
structure Net where
  snd : SndSt
  sops : List SOp
  toR : List Byte
  toS : List Byte
  rcv : RcvSt
  rops : List ROp

/-- One call on the sending endpoint; `none`: finished or waiting.
`data`: bool_io.h:64-68; `back`: 70-74 (the flush before waiting is a separate step: while bits are buffered the call first
pads and sends them, then waits); `hash`: the call pattern `flush(); get_hash_block()` (ostriple.h:145-146), 39-43. -/
def stepS (S : Nat) (c : Net) : Option Net :=
  match c.sops with
  | [] => none
  | .bit b :: rest =>
    let (s, w) := sendBit S c.snd b
    some { c with snd := s, sops := rest, toR := c.toR ++ w }
  | .flush :: rest =>
    let (s, w) := sndFlush S c.snd
    some { c with snd := s, sops := rest, toR := c.toR ++ w }
  | .data bs :: rest =>
    let (s, w) := sndFlush S c.snd
    some { c with snd := s, sops := rest, toR := c.toR ++ w ++ bs }
  | .hash :: rest =>
    let (s, w) := sndFlush S c.snd
    some { c with snd := { s with hashed := [], digests := s.digests ++ [s.hashed] }, sops := rest,
                  toR := c.toR ++ w }
  | .back n :: rest =>
    if c.snd.buf ≠ [] then
      let (s, w) := sndFlush S c.snd
      some { c with snd := s, toR := c.toR ++ w }
    else if c.toS.length < n then none
    else some { c with snd := { c.snd with got := c.snd.got ++ [c.toS.take n] }, sops := rest,
                       toS := c.toS.drop n }

/-- One call on the receiving endpoint.  `bit`: bool_io.h:54-62; `data`: 70-74; `back`: 64-68 (`ptr` is never 0
between calls on this end, so `flush` is always called). -/
def stepR (S : Nat) (c : Net) : RecvRes Net :=
  match c.rops with
  | [] => .blocked
  | .bit :: rest =>
    match rcvFill S c.rcv c.toR with
    | .blocked => .blocked
    | .ub => .ub
    | .ok (r, w) =>
      match rcvTake r with
      | .ok r' => .ok { c with rcv := r', rops := rest, toR := w }
      | .blocked => .blocked
      | .ub => .ub
  | .flush :: rest => .ok { c with rcv := rcvFlush S c.rcv, rops := rest }
  | .data n :: rest =>
    if c.toR.length < n then .blocked
    else
      let r := rcvFlush S c.rcv
      .ok { c with rcv := { r with datas := r.datas ++ [c.toR.take n] }, rops := rest, toR := c.toR.drop n }
  | .hash :: rest =>
    let r := rcvFlush S c.rcv
    .ok { c with rcv := { r with hashed := [], digests := r.digests ++ [r.hashed] }, rops := rest }
  | .back bs :: rest => .ok { c with rcv := rcvFlush S c.rcv, rops := rest, toS := c.toS ++ bs }

/-- bool_io.h:15-21: both endpoints after construction (the receiver's array is uninitialised: `junk`). -/
def netInit (S : Nat) (junk : List Byte) (sops : List SOp) (rops : List ROp) : Net :=
  ⟨⟨[], [], [], []⟩, sops, [], [], ⟨junk, S, [], [], [], []⟩, rops⟩

/-- Configurations reachable under some schedule of the two endpoints (bool_io.h:45-74, the two processes being independent). -/
inductive Reach (S : Nat) (c0 : Net) : Net → Prop where
  | init : Reach S c0 c0
  | sndStep {c c'} : Reach S c0 c → stepS S c = some c' → Reach S c0 c'
  | rcvStep {c c'} : Reach S c0 c → stepR S c = .ok c' → Reach S c0 c'

/-- The sending endpoint alone (bool_io.h:26-52, 64-74): state after a sequence of calls, what is received left out. `stepS` goes through
the same states: `sndRun_of_reach` in `Verif.Lemmas.BoolIO`. -/
def sndRun (S : Nat) : SndSt → List SOp → SndSt
  | s, [] => s
  | s, .bit b :: l => sndRun S (sendBit S s b).1 l
  | s, .hash :: l =>
    let s1 := (sndFlush S s).1
    sndRun S { s1 with hashed := [], digests := s1.digests ++ [s1.hashed] } l
  | s, .flush :: l => sndRun S (sndFlush S s).1 l
  | s, .data _ :: l => sndRun S (sndFlush S s).1 l
  | s, .back _ :: l => sndRun S (sndFlush S s).1 l

end EmpZk
