import Verif.Spec.BoolCircuit
/-!
emp-zk/extensions/lowmc.h: `ZKLowMC`. The functions with a version for `bool` and one for `Bit` (templates or overloads with the
same loops) are written once over a type `T` of bits with its operations; `boolOps` are the operations on `bool`, `wireOps` those on
`Bit`: a `Bit` is the number of its wire, and its operations append instructions to a boolean program (`BOp`), which the
sessions of `Model/BoolSession.lean` execute. `none` = read outside an array.
-/
namespace EmpZk

/-- lowmc.h:13-19: the constants (kept as parameters). -/
structure LmCfg where
  boxes : Nat
  block : Nat
  key : Nat
  rounds : Nat

/-- lowmc.h:13-16: their values. -/
def lmCfg : LmCfg := ⟨15, 64, 128, 11⟩

/-- Operations on a type of bits, with effects on a state `σ`; `sel m x` is the product with a known bit
(the two instances used in lowmc.h:105-189). -/
structure BitOps (σ T : Type) where
  xor : T → T → StateT σ Option T
  and : T → T → StateT σ Option T
  sel : Bool → T → T

/-- `bool`: `^`, `&`, and `pt[j] & in[i]` (lowmc.h:130, 134). -/
def boolOps : BitOps Unit Bool where
  xor a b := pure (a ^^ b)
  and a b := pure (a && b)
  sel m x := m && x

/-- A program under construction: number of wires and instructions (the calls of zk_bool_circuit_exec.h:14-17 in order). -/
structure Gen where
  n : Nat
  ops : List BOp

/-- One instruction that produces a wire (zk_bool_circuit_exec.h:14-18). -/
def genEmit (o : BOp) : StateT Gen Option Nat := fun g => some (g.n, ⟨g.n + 1, g.ops ++ [o]⟩)

/-- `Bit`: `^` and `&` of emp-tool call the gates of zk_bool_circuit_exec.h:14-17; `choice[pt[j]]` (lowmc.h:143-152, 185-189) with
`choice[0] = zero_block`, here the wire `zero`. -/
def wireOps (zero : Nat) : BitOps Gen Nat where
  xor a b := genEmit (.xor a b)
  and a b := genEmit (.and a b)
  sel m x := if m then x else zero

section
variable {σ T : Type}

/-- Element of an array (`in[i]`, `out[i]` in lowmc.h:105-189; `none`: out of bounds). -/
def arr (l : List T) (i : Nat) : StateT σ Option T := fun s => (l[i]?).map (fun x => (x, s))

/-- lowmc.h:105-109 `ZKBitVecXor(out, a + oa, b + ob, len)`. In-place calls read each element before it is written. -/
def lmXor (o : BitOps σ T) (a : List T) (oa : Nat) (b : List T) (ob len : Nat) : StateT σ Option (List T) :=
  (List.range len).mapM (fun i => do
    let x ← arr a (oa + i)
    let y ← arr b (ob + i)
    o.xor x y)

/-- lowmc.h:115-122: one box. -/
def lmBox (o : BitOps σ T) (inp : List T) (i : Nat) : StateT σ Option (List T) := do
  let x0 ← arr inp (3 * i)
  let x1 ← arr inp (3 * i + 1)
  let x2 ← arr inp (3 * i + 2)
  let t ← o.and x1 x2
  let a ← o.xor x0 t
  let t ← o.and x0 x2
  let u ← o.xor x1 t
  let b ← o.xor x0 u
  let t ← o.and x0 x1
  let u ← o.xor x2 t
  let v ← o.xor x1 u
  let c ← o.xor x0 v
  pure [a, b, c]

/-- lowmc.h:111-124 `Substitution`. It is only called with `out == in`: each box reads its three bits before they are written;
the `memcpy` of the `identitysize` other bits onto themselves is taken as doing nothing. -/
def lmSubst (c : LmCfg) (o : BitOps σ T) (inp : List T) : StateT σ Option (List T) := do
  let bs ← (List.range c.boxes).mapM (lmBox o inp)
  let rest ← (List.range (c.block - 3 * c.boxes)).mapM (fun i => arr inp (3 * c.boxes + i))
  pure (bs.flatten ++ rest)

/-- lowmc.h:132-135 and 147-152: one more row of the matrix. -/
def lmMulRow (c : LmCfg) (o : BitOps σ T) (mat : List Bool) (off : Nat) (inp : List T) (buf : List T) (i : Nat) :
    StateT σ Option (List T) := do
  let x ← arr inp i
  (List.range c.block).mapM (fun j => do
    let b ← arr buf j
    let m ← arr mat (off + i * c.block + j)
    o.xor b (o.sel m x))

/-- lowmc.h:126-138 and 140-155 `MultiplyWithGF2Matrix(out, matrix + off, in)`. -/
def lmMul (c : LmCfg) (o : BitOps σ T) (mat : List Bool) (off : Nat) (inp : List T) : StateT σ Option (List T) := do
  let x ← arr inp 0
  let buf ← (List.range c.block).mapM (fun j => do
    let m ← arr mat (off + j)
    pure (o.sel m x))
  (List.range' 1 (c.block - 1)).foldlM (lmMulRow c o mat off inp) buf

/-- lowmc.h:173-192 `MultiplyWithGF2Matrix_Key(out, matrix + off, k)`. -/
def lmMulKey (c : LmCfg) (o : BitOps σ T) (mat : List Bool) (off : Nat) (k : List T) : StateT σ Option (List T) :=
  (List.range c.block).mapM (fun i => do
    let m ← arr mat (off + i * c.key)
    let x ← arr k 0
    (List.range' 1 (c.key - 1)).foldlM (fun acc j => do
      let m ← arr mat (off + i * c.key + j)
      let x ← arr k j
      o.xor acc (o.sel m x)) (o.sel m x))

/-- lowmc.h:194-204 `keyschedule`: all round keys, one after another. -/
def lmKeys (c : LmCfg) (o : BitOps σ T) (km : List Bool) (k : List T) : StateT σ Option (List T) := do
  let rks ← (List.range (c.rounds + 1)).mapM (fun r => lmMulKey c o km (r * c.block * c.key) k)
  pure rks.flatten

/-- lowmc.h:63-69 and 74-81: one round. -/
def lmRound (c : LmCfg) (o : BitOps σ T) (lin : List Bool) (rc rk : List T) (ctx : List T) (r : Nat) :
    StateT σ Option (List T) := do
  let ctx ← lmSubst c o ctx
  let ctx ← lmMul c o lin ((r - 1) * c.block * c.block) ctx
  let ctx ← lmXor o ctx 0 rc ((r - 1) * c.block) c.block
  lmXor o ctx 0 rk (r * c.block) c.block

/-- lowmc.h:61-70 and 72-82 `encrypt_block(ctx, msg + off)`. -/
def lmEncBlock (c : LmCfg) (o : BitOps σ T) (lin : List Bool) (rc rk : List T) (msg : List T) (off : Nat) :
    StateT σ Option (List T) := do
  let ctx ← lmXor o msg off rk 0 c.block
  (List.range' 1 c.rounds).foldlM (lmRound c o lin rc rk) ctx

/-- lowmc.h:51-54 and 56-59 `encrypt(ctx, msg, nblocks)`. -/
def lmEnc (c : LmCfg) (o : BitOps σ T) (lin : List Bool) (rc rk : List T) (msg : List T) (nblocks : Nat) :
    StateT σ Option (List T) := do
  let cs ← (List.range nblocks).mapM (fun i => lmEncBlock c o lin rc rk msg (i * c.block))
  pure cs.flatten

end

/-- What `prg` (seeded with zero, external) fills into `LinMatrices_loc`, `roundconstants_loc`, `KeyMatrices_loc`
(lowmc.h:222, 232, 242). -/
structure LmParams where
  lin : List Bool
  rc : List Bool
  km : List Bool

/-- lowmc.h:23-26, 194-249 and 56-59: construction with the key `key`, then `encrypt` on `bool`. -/
def lmClear (c : LmCfg) (p : LmParams) (key msg : List Bool) (nblocks : Nat) : Option (List Bool) :=
  (do
    let rk ← lmKeys c boolOps p.km key
    lmEnc c boolOps p.lin p.rc rk msg nblocks : StateT Unit Option (List Bool)).run' ()

/-- The `Bit` members of a `ZKLowMC` object (lowmc.h:90, 99-103; `choice[0]` is `zero`). -/
structure LmObj where
  zero : Nat
  rc : List Nat
  rk : List Nat

/-- lowmc.h:23-26 constructor, `Bit` part: `feed` of the key by ALICE (214), of the round constants as PUBLIC (233-234),
`choice[0] = zero_block` (248), key schedule. The block `zero_block` is written as the sum of the first key bit with itself, which is
that block at both parties. -/
def lmNew (c : LmCfg) (p : LmParams) (key : List Bool) : StateT Gen Option LmObj := do
  let k ← (List.range c.key).mapM (fun i => do
    let b ← arr key i
    genEmit (.input b))
  let rc ← (List.range (c.rounds * c.block)).mapM (fun i => do
    let b ← arr p.rc i
    genEmit (.pub b))
  let k0 ← arr k 0
  let zero ← genEmit (.xor k0 k0)
  let rk ← lmKeys c (wireOps zero) p.km k
  pure ⟨zero, rc, rk⟩

/-- zk_prover.h:54-61: `feed` of message bits by ALICE (test/bool/lowmc.cpp:32). -/
def lmFeed (bits : List Bool) : StateT Gen Option (List Nat) := bits.mapM (fun b => genEmit (.input b))

/-- `reveal` of wires (test/bool/lowmc.cpp:43). -/
def lmReveal (ws : List Nat) : StateT Gen Option Unit := fun g => some ((), ⟨g.n, g.ops ++ ws.map .reveal⟩)

/-- test/bool/lowmc.cpp:32-43: the program that proves knowledge of a key and of messages encrypting to the revealed bits. -/
def lmProgram (c : LmCfg) (p : LmParams) (key msg : List Bool) (nblocks : Nat) : Option (List BOp) :=
  ((do
    let m ← lmFeed msg
    let obj ← lmNew c p key
    let ctx ← lmEnc c (wireOps obj.zero) p.lin obj.rc obj.rk m nblocks
    lmReveal ctx : StateT Gen Option Unit) ⟨0, []⟩).map (fun r => r.2.ops)

end EmpZk
