/-
Model of emp-zk/emp-zk-arith/ostriple.h:368-520: linear operations on authenticated values, the check value of a multiplication
against a given triple, and the debug checks. Nothing else in the repository calls them.
-/
import Verif.Model.ArithGate

namespace EmpZk

/-- ostriple.h:413-416 `auth_mac_add`. -/
def authMacAdd (a b : U128) : U128 := vecMod (vAdd a b)

/-- ostriple.h:420-424 `auth_mac_add_const`; `makeBlock(c, 0)` takes the low half of `c`. -/
def authMacAddConst (a c : U128) : U128 := vecMod (vAdd a (makeBlock (low64 c) 0))

/-- ostriple.h:428-432 `auth_mac_subtract`. -/
def authMacSub (a b : U128) : U128 := vecMod (vAdd a (vSub PRs b))

/-- ostriple.h:442-444 `auth_key_add`: `add_mod(uint64_t, uint64_t)`. -/
def authKeyAdd (a b : U128) : U128 := keyWord (addMod (low64 a) (low64 b))

/-- ostriple.h:448-452 `auth_key_add_const`: the subtraction is on 128 bits, `add_mod` takes the low halves. -/
def authKeyAddConst (delta : W) (a c : U128) : U128 :=
  let tmp := keyWord (multMod (low64 c) delta)
  keyWord (addMod (low64 a) (low64 (PR128 - tmp)))

/-- ostriple.h:456-459 `auth_key_subtract`. -/
def authKeySub (a b : U128) : U128 := keyWord (addMod (low64 (PR128 - b)) (low64 a))

/-- ostriple.h:368-377 `compute_mu_prv`; `epsilon` and `sigma` are labels. -/
def computeMuPrv (z1 t0 t1 t2 epsilon sigma : U128) : U128 :=
  let tmp1 := authMacSub t2 z1
  let tmp2 := mulConstA t0 (low64 (sigma >>> 64))
  let tmp3 := mulConstA t1 (low64 (epsilon >>> 64))
  let tmp4 := mod128 ((epsilon >>> 64) * (sigma >>> 64)) PR128
  authMacAddConst (authMacAdd (authMacAdd tmp1 tmp2) tmp3) tmp4

/-- ostriple.h:378-387 `compute_mu_vrf`; `epsilon` and `sigma` are the opened values. -/
def computeMuVrf (delta : W) (z1 t0 t1 t2 epsilon sigma : U128) : U128 :=
  let tmp1 := authKeySub t2 z1
  let tmp2 := mulConstB t0 (low64 sigma)
  let tmp3 := mulConstB t1 (low64 epsilon)
  let tmp4 := mod128 (epsilon * sigma) PR128
  authKeyAddConst delta (authKeyAdd (authKeyAdd tmp1 tmp2) tmp3) tmp4

/-- ostriple.h:389-398 `compute_mu_prv_opt`. -/
def computeMuPrvOpt (la lb eta t0 t1 t2 : U128) : U128 :=
  let tmp1 := authMacSub t2 eta
  let tmp2 := mulConstA t0 (high64 lb)
  let tmp3 := mulConstA t1 (high64 la)
  let tmp4 := keyWord (multMod (high64 la) (high64 lb))
  authMacAddConst (authMacAdd (authMacAdd tmp1 tmp2) tmp3) tmp4

/-- ostriple.h:400-409 `compute_mu_vrf_opt`. -/
def computeMuVrfOpt (delta : W) (la lb eta t0 t1 t2 : U128) : U128 :=
  let tmp1 := authKeySub t2 eta
  let tmp2 := mulConstB t0 (low64 lb)
  let tmp3 := mulConstB t1 (low64 la)
  let tmp4 := keyWord (multMod (low64 la) (low64 lb))
  authKeyAddConst delta (authKeyAdd (authKeyAdd tmp1 tmp2) tmp3) tmp4

/-- ostriple.h:482-489 (one round of `check_auth_mac`): `false` is the abort. -/
def checkAuthMac1 (delta : W) (key recv : U128) : Bool :=
  let mac := mod128 ((recv >>> 64) * delta.setWidth 128) PR128
  let mac := mod128 (mac + key) PR128
  (recv &&& 0xFFFFFFFFFFFFFFFF#128) == mac

/-- ostriple.h:476-492 `check_auth_mac`, verifier: keys and received labels of the same number. -/
def checkAuthMac (delta : W) (keys recv : List U128) : Bool := (List.zipWith (checkAuthMac1 delta) keys recv).all id

/-- ostriple.h:507-515 (one round of `check_compute_mul`): `false` is the call of `error`. -/
def checkComputeMul1 (delta : W) (key ar br cr : U128) : Bool :=
  let product := mod128 ((ar >>> 64) * (br >>> 64)) PR128
  let mac := mod128 (product * delta.setWidth 128) PR128
  let mac := mod128 (mac + key) PR128
  product == (cr >>> 64) && mac == (cr &&& 0xFFFFFFFFFFFFFFFF#128)

/-- ostriple.h:494-520 `check_compute_mul`, verifier; the keys of `a` and `b` are not used. -/
def checkComputeMul (delta : W) (keys : List U128) (recv : List (U128 × U128 × U128)) : Bool :=
  (List.zipWith (fun k r => checkComputeMul1 delta k r.1 r.2.1 r.2.2) keys recv).all id

end EmpZk
