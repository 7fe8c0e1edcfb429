/-
Model of emp-zk/extensions/floats.h: conversion between single precision floats and 62-bit field elements.

The functions are circuits over emp-tool's `Integer` and `Float` (external).  Used here of emp-tool: `Integer` of width `w` is a
`w`-bit string, lowest bit first; `+`, `-`, unary `-` wrap around; `>`, `>=` compare as signed numbers (where the
difference fits the width, as it does wherever the theorems apply); `If(c, a, b)` is `a` when
`c`; `resize(w, false)` pads with zeros; `abs` is the absolute value in two's complement; `leading_zeros` counts the zeros above the
highest one.  A shift by an `Integer` smaller than the width is exact; the result of a larger amount is left open (`ovl`, `ovr`).
`Float` is 32 bits: 23 bits of fraction, 8 of exponent, the sign.
-/
import Mathlib.Data.Nat.Log

namespace EmpZk

/-- `Integer << Integer` (external, see above); used in floats.h:19,46. -/
def shlI (ovl : BitVec 61 → BitVec 8 → BitVec 61) (x : BitVec 61) (a : BitVec 8) : BitVec 61 :=
  if a.toNat < 61 then x <<< a.toNat else ovl x a

/-- `Integer >> Integer` (external, see above); used in floats.h:19,46. -/
def shrI (ovr : BitVec 61 → BitVec 8 → BitVec 61) (x : BitVec 61) (a : BitVec 8) : BitVec 61 :=
  if a.toNat < 61 then x >>> a.toNat else ovr x a

/-- floats.h:10-13: the 23 bits of the fraction, a one at position 23, a zero at 24, padded to 61 bits. -/
def floatFraction (f : BitVec 32) : BitVec 61 := (1#2 ++ f.extractLsb' 0 23).setWidth 61

/-- floats.h:15-17: `exp - (127 + 23 - s)` in 8 bits. -/
def floatExp (f : BitVec 32) (s : Int) : BitVec 8 := f.extractLsb' 23 8 - BitVec.ofInt 8 (127 + 23 - s)

/-- floats.h:9-25 `FloatToInt62`. -/
def floatToInt62 (ovl ovr : BitVec 61 → BitVec 8 → BitVec 61) (f : BitVec 32) (s : Int) : BitVec 62 :=
  let fraction := floatFraction f
  let exp := floatExp f s
  let negexp := -exp
  let fraction := if exp.getLsbD 7 = false then shlI ovl fraction exp else shrI ovr fraction negexp
  let fraction := if (61#8).sle negexp then 0#61 else fraction
  let fraction := if f.getLsbD 31 then -fraction else fraction
  fraction.setWidth 62

/-- `Integer::leading_zeros` on 61 bits (external): number of zeros above the highest one, 61 for zero; used in floats.h:40. -/
def leadingZeros (x : BitVec 61) : Nat := if x.toNat = 0 then 61 else 60 - Nat.log 2 x.toNat

/-- floats.h:28-30: the signed number, 61 bits: elements above `2^60 - 1` stand for negative numbers. -/
def int62Signed (x : BitVec 62) : BitVec 61 :=
  (if (BitVec.ofNat 62 (2^60 - 1)).slt x then x - BitVec.ofNat 62 (2^61 - 1) else x).setWidth 61

/-- floats.h:27-54 `Int62ToFloat`. -/
def int62ToFloat (ovl ovr : BitVec 61 → BitVec 8 → BitVec 61) (x : BitVec 62) (s : Int) : BitVec 32 :=
  let input := int62Signed x
  let signBit := input.getLsbD 60
  let u := if signBit then -input else input
  let firstOneIdx : BitVec 8 := 60#8 - BitVec.ofNat 8 (leadingZeros u)
  let leftShift := (23#8).sle firstOneIdx
  let shiftOffset := if leftShift then firstOneIdx - 23#8 else 23#8 - firstOneIdx
  let shifted := if leftShift then shrI ovr u shiftOffset else shlI ovl u shiftOffset
  let exponent := firstOneIdx + BitVec.ofInt 8 (127 - s)
  BitVec.ofBool signBit ++ exponent ++ shifted.extractLsb' 0 23

end EmpZk
