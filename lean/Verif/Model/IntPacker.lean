/-
Model of src/search/algorithms/int_packer.{h,cc}.

Simplifications: C++ `int` indices are `Nat`; an access outside `var_infos` or the
buffer, or through a default-constructed `VariableInfo` (bin_index = -1), is the
outcome `none`.  `bits_to_vars` is a function from its index (only 0..32 is used) and
each inner vector is a list whose head is `back()`.
-/
namespace Verif.IntPacker

/-- int_packer.h:33 `typedef unsigned int Bin;` -/
abbrev Bin := BitVec 32

/-- int_packer.cc:8 -/
def BITS_PER_BIN : Nat := 32

/-- int_packer.cc:10-23 `get_bit_mask(from, to)` -/
def getBitMask (lo hi : Nat) : Bin :=
  let length := hi - lo
  if length = BITS_PER_BIN then ~~~(0 : Bin)
  else (((1 : Bin) <<< length) - 1) <<< lo

/-- int_packer.cc:31-33, the while loop of `get_bit_size_for_range`.
`1U << num_bits` is undefined for `num_bits ≥ 32`: outcome `none`. -/
def bitSizeLoop (range : Nat) (numBits : Nat) : Option Nat :=
  if h : numBits < BITS_PER_BIN then
    if 2 ^ numBits < range then bitSizeLoop range (numBits + 1) else some numBits
  else none
termination_by BITS_PER_BIN - numBits

/-- int_packer.cc:25-34 `get_bit_size_for_range` -/
def getBitSizeForRange (range : Nat) : Option Nat :=
  if range = 1 then some 1 else bitSizeLoop range 0

/-- int_packer.cc:36-64 `IntPacker::VariableInfo` -/
structure VarInfo where
  range : Nat
  binIndex : Nat
  shift : Nat
  readMask : Bin
  clearMask : Bin
deriving Repr

/-- int_packer.cc:43-48, constructor `VariableInfo(range_, bin_index_, shift_)` -/
def VarInfo.make (range binIndex shift : Nat) : Option VarInfo := do
  let bitSize ← getBitSizeForRange range
  let readMask := getBitMask shift (shift + bitSize)
  pure { range, binIndex, shift, readMask, clearMask := ~~~readMask }

/-- int_packer.cc:57-59 `VariableInfo::get` (the unsigned result is converted to `int`) -/
def VarInfo.get (vi : VarInfo) (buffer : List Bin) : Option Int := do
  let bin ← buffer[vi.binIndex]?
  pure ((bin &&& vi.readMask) >>> vi.shift).toInt

/-- int_packer.cc:61-65 `VariableInfo::set` (the assert is a precondition of the theorems) -/
def VarInfo.set (vi : VarInfo) (buffer : List Bin) (value : Int) : Option (List Bin) := do
  let bin ← buffer[vi.binIndex]?
  pure (buffer.set vi.binIndex ((bin &&& vi.clearMask) ||| (BitVec.ofInt 32 value <<< vi.shift)))

/-- int_packer.h:21-25; `none` in `varInfos` is a default-constructed `VariableInfo`. -/
structure Packer where
  varInfos : List (Option VarInfo)
  numBins : Nat
deriving Repr

/-- int_packer.cc:74-76 `IntPacker::get` -/
def Packer.get (p : Packer) (buffer : List Bin) (var : Nat) : Option Int := do
  let vi ← (← p.varInfos[var]?)
  vi.get buffer

/-- int_packer.cc:78-80 `IntPacker::set` -/
def Packer.set (p : Packer) (buffer : List Bin) (var : Nat) (value : Int) : Option (List Bin) := do
  let vi ← (← p.varInfos[var]?)
  vi.set buffer value

/-- int_packer.cc:120-122: `while (bits > 0 && bits_to_vars[bits].empty()) --bits;` -/
def findBits (bitsToVars : Nat → List Nat) : Nat → Nat
  | 0 => 0
  | b + 1 => if (bitsToVars (b + 1)).isEmpty then findBits bitsToVars b else b + 1

/-- Loop state of `pack_bins` / `pack_one_bin`. -/
structure PackState where
  bitsToVars : Nat → List Nat
  varInfos : List (Option VarInfo)

/-- int_packer.cc:117-139, the `while (true)` loop of `pack_one_bin`; returns
`num_vars_in_bin` and the modified state. -/
def packOneBinLoop (ranges : List Nat) (binIndex : Nat) (usedBits numInBin : Nat)
    (st : PackState) : Option (Nat × PackState) :=
  let bits := findBits st.bitsToVars (BITS_PER_BIN - usedBits)
  if _hb : bits = 0 then some (numInBin, st)
  else
    match st.bitsToVars bits with
    | [] => none
    | var :: rest =>
      match ranges[var]? with
      | none => none
      | some range =>
        match VarInfo.make range binIndex usedBits with
        | none => none
        | some vi =>
          if h : usedBits < BITS_PER_BIN then
            packOneBinLoop ranges binIndex (usedBits + bits) (numInBin + 1)
              { bitsToVars := fun b => if b = bits then rest else st.bitsToVars b,
                varInfos := st.varInfos.set var (some vi) }
          else none
termination_by BITS_PER_BIN - usedBits
decreasing_by omega

/-- int_packer.cc:95-99: fill `bits_to_vars`, from the last variable to the first, so the
smallest variable index of a size class ends up at the back (= head of our list). -/
def fillBits (ranges : List Nat) : Nat → (Nat → List Nat) → Option (Nat → List Nat)
  | 0, acc => some acc
  | v + 1, acc => do
    let range ← ranges[v]?
    let bits ← getBitSizeForRange range
    fillBits ranges v (fun b => if b = bits then v :: acc b else acc b)

/-- int_packer.cc:101-103: `while (packed_vars != num_vars) packed_vars += pack_one_bin(...)`.
`fuel` bounds the number of iterations; `none` would mean that the loop runs longer. -/
def packLoop (ranges : List Nat) (fuel packed numBins : Nat) (st : PackState) :
    Option Packer :=
  if packed = ranges.length then some { varInfos := st.varInfos, numBins }
  else
    match fuel with
    | 0 => none
    | fuel + 1 => do
      let (n, st') ← packOneBinLoop ranges numBins 0 0 st
      packLoop ranges fuel (packed + n) (numBins + 1) st'

/-- int_packer.cc:67-69, 82-104: the constructor (`pack_bins`). -/
def Packer.make (ranges : List Nat) : Option Packer := do
  let b2v ← fillBits ranges ranges.length (fun _ => [])
  packLoop ranges ranges.length 0 0
    { bitsToVars := b2v, varInfos := List.replicate ranges.length none }

end Verif.IntPacker
