import Verif.Model.MasDistances

/-
Model of src/search/merge_and_shrink/{shrink_bucket_based,shrink_fh,shrink_random}.cc.

`none` is undefined behaviour or a failed assertion.  The random number generator is a parameter.  The assertions about `bucket_count`, which only serves to reserve memory, are left out.
-/
namespace Verif.Mas

/-! ### the order in which buckets are shrunk -/

/-- shrink_fh.h:22-25 -/
inductive HighLow where
  | high
  | low
deriving DecidableEq

/-- shrink_fh.cc:86-92, 118-126, 156-165: iteration from the end or from the beginning -/
def HighLow.order {α : Type} : HighLow → List α → List α
  | .high, l => l.reverse
  | .low, l => l

/-! ### buckets by f and h -/

/-- shrink_fh.cc:32-54, 102-109: the values f and h of a state; undefined if the distances have not been computed or the sum overflows -/
def fhAt (d : Distances) (s : Nat) : Option (Nat × Nat) :=
  match d.init, d.goal with
  | some gs, some hs =>
    match gs[s]?, hs[s]? with
    | some g, some h => if g = inf ∨ h = inf then some (inf, h) else if g + h < 2 ^ 31 then some (g + h, h) else none
    | _, _ => none
  | _, _ => none

/-- shrink_fh.cc:141-145: the same for the vector-based version, which asserts that the state is alive -/
def fhAlive (d : Distances) (s : Nat) : Option (Nat × Nat) :=
  match d.init, d.goal with
  | some gs, some hs =>
    match gs[s]?, hs[s]? with
    | some g, some h => if g = inf ∨ h = inf then none else if g + h < 2 ^ 31 then some (g + h, h) else none
    | _, _ => none
  | _, _ => none

/-- std::map with int keys, as a sorted list: update of the entry of a key, which is created if there is none -/
def mapAt {β : Type} (upd : Option β → β) (k : Nat) : List (Nat × β) → List (Nat × β)
  | [] => [(k, upd none)]
  | (k', v) :: m => if k < k' then (k, upd none) :: (k', v) :: m else if k = k' then (k, upd (some v)) :: m else (k', v) :: mapAt upd k m

/-- shrink_fh.cc:110-113 -/
def pushMap (f h s : Nat) (M : List (Nat × List (Nat × List Nat))) : List (Nat × List (Nat × List Nat)) :=
  mapAt (fun row => mapAt (fun b => b.getD [] ++ [s]) h (row.getD [])) f M

/-- shrink_fh.cc:98-114 for the states of the list -/
def fillMap (d : Distances) : List Nat → List (Nat × List (Nat × List Nat)) → Option (List (Nat × List (Nat × List Nat)))
  | [], M => some M
  | s :: ss, M =>
    match fhAt d s with
    | none => none
    | some k => fillMap d ss (pushMap k.1 k.2 s M)

/-- shrink_fh.cc:96-129 `ordered_buckets_use_map`, 68-94 `collect_h_buckets`, `collect_f_h_buckets` -/
def bucketsMap (df dh : HighLow) (d : Distances) (n : Nat) : Option (List (List Nat)) :=
  match fillMap d (List.range n) [] with
  | none => none
  | some M => some ((df.order M).flatMap (fun p => (dh.order p.2).map (·.2)))

/-- shrink_fh.cc:146-151 -/
def pushVector (f h s : Nat) (M : List (List (List Nat))) : Option (List (List (List Nat))) :=
  match M[f]? with
  | none => none
  | some row =>
    match row[h]? with
    | none => none
    | some b => some (M.set f (row.set h (b ++ [s])))

/-- shrink_fh.cc:140-152 for the states of the list -/
def fillVector (d : Distances) : List Nat → List (List (List Nat)) → Option (List (List (List Nat)))
  | [], M => some M
  | s :: ss, M =>
    match fhAlive d s with
    | none => none
    | some k =>
      match pushVector k.1 k.2 s M with
      | none => none
      | some M => fillVector d ss M

/-- shrink_fh.cc:131-175 `ordered_buckets_use_vector` -/
def bucketsVector (df dh : HighLow) (d : Distances) (n maxF maxH : Nat) : Option (List (List Nat)) :=
  match fillVector d (List.range n) ((List.range (maxF + 1)).map (fun f => List.replicate (min f maxH + 1) [])) with
  | none => none
  | some M => some ((df.order M).flatMap (fun row => (dh.order row).filter (fun b => !b.isEmpty)))

/-- shrink_fh.cc:30-66 `partition_into_buckets`.  The comparison of the code, in floating point numbers, is exact enough: rounding only happens for squares above 2^53, which exceed every size. -/
def partitionFH (df dh : HighLow) (T : TS) (d : Distances) : Option (List (List Nat)) :=
  match mapAll (fhAt d) (List.range T.size) with
  | none => none
  | some ks =>
    if (ks.map (·.1)).foldl max 0 * (ks.map (·.1)).foldl max 0 > 2 * T.size then bucketsMap df dh d T.size
    else bucketsVector df dh d T.size ((ks.map (·.1)).foldl max 0) ((ks.map (·.2)).foldl max 0)

/-- shrink_random.cc:19-30 -/
def partitionRandom (T : TS) : Option (List (List Nat)) := if T.size = 0 then none else some [List.range T.size]

/-! ### combining states -/

/-- shrink_bucket_based.cc:74-82: one iteration; `p` are the positions drawn by the random number generator, which are different -/
def combineOnce (p : Nat × Nat) (gs : List (List Nat)) : Option (List (List Nat)) :=
  if p.1 = p.2 then none
  else
    match gs[p.1]?, gs[p.2]? with
    | some a, some b =>
      match ((gs.set p.1 (b ++ a)).set p.2 []).getLast? with
      | none => none
      | some l => some (((gs.set p.1 (b ++ a)).set p.2 l).dropLast)
    | _, _ => none

/-- shrink_bucket_based.cc:73-83: combining until there are at most `budget` groups; the first argument limits the number of iterations, `none` if it does not suffice -/
def combineLoop (pick : Nat → Nat × Nat) (budget : Nat) : Nat → List (List Nat) → Option (List (List Nat))
  | 0, _ => none
  | k + 1, gs =>
    if budget < gs.length then
      match combineOnce (pick gs.length) gs with
      | none => none
      | some gs => combineLoop pick budget k gs
    else some gs

/-- shrink_bucket_based.cc:32-90: bucket number `no` of `count` buckets; `toGo` is the number of states in later buckets.  The numbers are below 2^31, so that the conversions between int and size_t in
line 36 do not change the value. -/
def bucketStep (pick : Nat → Nat × Nat) (target count no toGo : Nat) (bucket : List Nat) (rel : List (List Nat)) : Option (List (List Nat)) :=
  if (target : Int) - rel.length - toGo ≥ bucket.length then some (rel ++ bucket.map (fun s => [s]))
  else if (target : Int) - rel.length - toGo ≤ 1 then
    if (target : Int) - rel.length ≥ (count : Int) - no then some (rel ++ [bucket])
    else if no = 0 then some (rel ++ [bucket])
    else
      match rel.getLast? with
      | none => none
      | some l => some (rel.dropLast ++ [bucket ++ l])
  else
    match combineLoop pick ((target : Int) - rel.length - toGo).toNat (bucket.length + 1) (bucket.map (fun s => [s])) with
    | none => none
    | some gs => some (rel ++ gs)

/-- shrink_bucket_based.cc:27-91: the buckets from number `no` on; `pick no k` are the positions drawn when bucket `no` has `k` groups -/
def bucketLoop (pick : Nat → Nat → Nat × Nat) (target count : Nat) : Nat → List (List Nat) → List (List Nat) → Option (List (List Nat))
  | _, [], rel => some rel
  | no, b :: bs, rel =>
    match bucketStep (pick no) target count no (bs.map List.length).sum b rel with
    | none => none
    | some rel => bucketLoop pick target count (no + 1) bs rel

/-- shrink_bucket_based.cc:20-93 `compute_abstraction` -/
def computeAbstraction (pick : Nat → Nat → Nat × Nat) (target : Nat) (bs : List (List Nat)) : Option (List (List Nat)) := bucketLoop pick target bs.length 0 bs []

/-- shrink_bucket_based.cc:95-100 with the buckets of shrink_fh.cc -/
def shrinkFH (df dh : HighLow) (pick : Nat → Nat → Nat × Nat) (T : TS) (d : Distances) (target : Nat) : Option (List (List Nat)) :=
  match partitionFH df dh T d with
  | none => none
  | some bs => computeAbstraction pick target bs

/-- shrink_bucket_based.cc:95-100 with the bucket of shrink_random.cc -/
def shrinkRandom (pick : Nat → Nat → Nat × Nat) (T : TS) (_ : Distances) (target : Nat) : Option (List (List Nat)) :=
  match partitionRandom T with
  | none => none
  | some bs => computeAbstraction pick target bs

end Verif.Mas
