import Verif.Model.Path
import Verif.Model.SaddleAngle
import Verif.Model.SaddlePath

/-!
# Tightening paths

Model of `tighten` in libflatsurf/src/path.cc. `none` is a computation that has not ended with the given fuel. `upper` is `Bound::upper`,
bound.cc:434-449.
-/

namespace Verif

variable {T : Type} [CommRing T] [LinearOrder T] {K : Type} [Field K] [LinearOrder K] [IsStrictOrderedRing K]

namespace SaddleSearch

/-- `skip`, saddle_connections_iterator.cc:412-460. The `assert` in 453 is not modelled. -/
def skip (P : Params T K) (m : Machine T) : Except Err (Machine T) :=
  match m.state with
  | [] => .error (if P.dbg then .logicError else .undefined)
  | .found :: state =>
    let state := match state with
      | .start _ _ :: l => l
      | l => l
    if P.dbg ∧ state.head? ≠ some .searchingFirst then .error .logicError
    else match state.dropWhile (fun l => decide (l ≠ .searchingSecond)) with
      | [] => .error .undefined
      | l :: state => .ok { m with state := .searchingFirst :: l :: state }
  | .start _ _ :: state => if m.state.length = 2 then .ok { m with state } else .error .logicError
  | _ => .error .logicError

end SaddleSearch

namespace Tighten

/-- Continues with the result of a computation unless it fails. -/
def andThen {α β : Type} (x : Option (Except Err α)) (f : α → Option (Except Err β)) : Option (Except Err β) :=
  match x with
  | none => none
  | some (.error err) => some (.error err)
  | some (.ok a) => f a

/-- `LIBFLATSURF_ASSERT`, which throws a `logic_error` in debug builds. -/
def assert (dbg : Bool) (condition : Bool) : Option (Except Err Unit) :=
  if dbg && !condition then some (.error .logicError) else some (.ok ())

/-- `LIBFLATSURF_UNREACHABLE`. -/
def unreachable (dbg : Bool) : Except Err Bool := .error (if dbg then .logicError else .undefined)

/-- `SaddleConnectionOrdering::operator()`, path.cc:55-135. The first argument limits the depth of the recursion. -/
def less (P : SaddleSearch.Params T K) (fuel : ℕ) (b : Saddle) : ℕ → Saddle → Saddle → Option (Except Err Bool)
  | 0, _, _ => none
  | depth + 1, x, y =>
    let ccw (c d : Saddle) := P.S.saddleCcw P.A fuel c d.source (P.S.saddleVector d)
    let angle (c d : Saddle) := P.S.saddleAngle P.A fuel c d.source (P.S.saddleVector d)
    andThen (some (SaddleSearch.equal P x y)) fun eq => if eq then some (.ok false) else
    andThen (angle b x) fun xangle => andThen (angle b y) fun yangle =>
    if xangle < yangle then some (.ok true)
    else if yangle < xangle then some (.ok false)
    else andThen (ccw x y) fun
      | .counterclockwise => andThen (ccw b x) fun
        | .counterclockwise => andThen (ccw b y) fun _ => some (.ok true)
        | .clockwise => andThen (ccw b y) fun
          | .counterclockwise => some (.ok false)
          | .clockwise => some (.ok true)
          | .collinear => some (unreachable P.dbg)
        | .collinear => andThen (ccw b y) fun
          | .counterclockwise => andThen (some (SaddleSearch.equal P b x)) fun eq => andThen (assert P.dbg eq) fun _ => some (.ok true)
          | .clockwise => some (.ok true)
          | .collinear => some (unreachable P.dbg)
      | .clockwise => andThen (less P fuel b depth y x) fun r => some (.ok !r)
      | .collinear => andThen (ccw b x) fun
        | .counterclockwise => andThen (ccw b y) fun c => andThen (assert P.dbg (decide (c = .clockwise))) fun _ => some (.ok true)
        | .clockwise => andThen (ccw b y) fun c => andThen (assert P.dbg (decide (c = .counterclockwise))) fun _ => some (.ok false)
        | .collinear => andThen (some (SaddleSearch.equal P x b)) fun xb =>
          andThen (if xb then some (.ok true) else some (SaddleSearch.equal P y b)) fun either =>
          andThen (assert P.dbg either) fun _ => some (.ok xb)

/-- `std::lower_bound`, path.cc:167, on the `len` elements from position `first` on. The first argument limits the number of steps. -/
def lowerBound (lt : Saddle → Option (Except Err Bool)) (rays : List Saddle) : ℕ → ℕ → ℕ → Option (Except Err ℕ)
  | 0, _, _ => none
  | fuel + 1, first, len =>
    if len = 0 then some (.ok first)
    else match rays[first + len / 2]? with
      | none => some (.error .undefined)
      | some mid => andThen (lt mid) fun
        | true => lowerBound lt rays fuel (first + len / 2 + 1) (len - len / 2 - 1)
        | false => lowerBound lt rays fuel first (len / 2)

/-- `extendsConvexHull`, path.cc:175-180, where `after` and `before` are the vectors of `insertAfter` and `insertBefore`. -/
def extends_ (P : SaddleSearch.Params T K) (after before v : Vec T) : Bool :=
  decide (Vec.ccw P.A (before - after) (v - after) ≠ .clockwise)

/-- What is skipped, path.cc:186-197. -/
def skipping (P : SaddleSearch.Params T K) (after before : Vec T) (connection : Saddle) (m : SaddleSearch.Machine T) :
    Except Err (SaddleSearch.Machine T) :=
  let target := connection.target
  let ccwInside := extends_ P after before (P.S.saddleVector connection + P.S.vec target)
  let cwInside := extends_ P after before (P.S.saddleVector connection + P.S.vec (P.S.tri.nextAtVertex target))
  if !ccwInside && !cwInside then SaddleSearch.skip P m
  else if !ccwInside then SaddleSearch.skipSector P m .counterclockwise
  else if !cwInside then SaddleSearch.skipSector P m .clockwise
  else .ok m

/-- The loop over the saddle connections, path.cc:163-199. The result are the rays. -/
def collect (P : SaddleSearch.Params T K) (fuel : ℕ) (b : Saddle) : ℕ → SaddleSearch.Machine T → List Saddle →
    Option (Except Err (List Saddle))
  | 0, _, _ => none
  | n + 1, m, rays =>
    if m.sectors.isEmpty then some (.ok rays)
    else andThen (some (SaddleSearch.dereference P m)) fun connection =>
      andThen (some (SaddleSearch.equal P connection b)) fun isB =>
      if isB then andThen (SaddleSearch.advance P fuel m) fun m => collect P fuel b n m rays
      else andThen (lowerBound (fun ray => less P fuel b 2 ray connection) rays (rays.length + 1) 0 rays.length) fun i =>
        match rays[i - 1]?, rays[i]? with
        | some after, some before =>
          if i = 0 then some (.error (if P.dbg then .logicError else .undefined))
          else andThen (some (SaddleSearch.equal P connection before)) fun duplicate =>
            andThen (assert P.dbg (!duplicate)) fun _ =>
            if extends_ P (P.S.saddleVector after) (P.S.saddleVector before) (P.S.saddleVector connection) then
              andThen (SaddleSearch.advance P fuel m) fun m => collect P fuel b n m (rays.take i ++ connection :: rays.drop i)
            else andThen (some (skipping P (P.S.saddleVector after) (P.S.saddleVector before) connection m)) fun m =>
              andThen (SaddleSearch.advance P fuel m) fun m => collect P fuel b n m rays
        | _, _ => some (.error (if P.dbg then .logicError else .undefined))

/-- The loop that removes points from the hull, path.cc:206-212; the last element of `hull` comes first. -/
def pop (A : Option (Approx T K)) (S : FlatTri T) (ray : Saddle) : List Saddle → List Saddle
  | last :: second :: hull =>
    let previous := S.saddleVector last - S.saddleVector second
    let next := S.saddleVector ray - S.saddleVector second
    if Vec.ccw A previous next ≠ .counterclockwise then last :: second :: hull else pop A S ray (second :: hull)
  | hull => hull

/-- The monotone chain algorithm, path.cc:204-214; the last element of the hull comes first. -/
def hull (A : Option (Approx T K)) (S : FlatTri T) (rays : List Saddle) : List Saddle :=
  rays.foldl (fun hull ray => ray :: pop A S ray hull) []

/-- A segment from the end of one ray to the end of the next one, path.cc:223-228. -/
def piece (P : SaddleSearch.Params T K) (fuel : ℕ) (i j : Saddle) : Option (Except Err Saddle) :=
  let chain := fun k => j.chain k - i.chain k
  let vector := P.S.chainVector chain
  andThen (P.S.sector P.A fuel i.target .clockwise vector false) fun source =>
  andThen (P.S.sector P.A fuel j.target .counterclockwise (-vector) false) fun target =>
  some (Saddle.make P.dbg P.S.tri.size source target chain)

/-- The segments of the path, path.cc:217-229. -/
def pieces (P : SaddleSearch.Params T K) (fuel : ℕ) : List Saddle → Option (Except Err (List Saddle))
  | i :: j :: hull => andThen (piece P fuel i j) fun p => andThen (pieces P fuel (j :: hull)) fun path => some (.ok (p :: path))
  | _ => some (.ok [])

/-- `tightenClockwise`, path.cc:142-232. -/
def clockwise (A : Option (Approx T K)) (dbg : Bool) (upper : Vec T → Bound) (fuel : ℕ) (S : FlatTri T) (a b : Saddle) :
    Option (Except Err (List Saddle)) :=
  let bound := if (upper (S.saddleVector b)).lt (upper (S.saddleVector a)) then upper (S.saddleVector a) else upper (S.saddleVector b)
  andThen (if dbg then S.saddleCcw A fuel a.neg b.source (S.saddleVector b) else some (.ok .clockwise)) fun ccw =>
  andThen (assert dbg (decide (ccw = .clockwise))) fun _ =>
  andThen (SaddleConnections.run A dbg S fuel (SaddleConnections.make S)
    [.connections (b.source, S.saddleVector b) (a.target, S.saddleVector a.neg), .bound bound]) fun connections =>
  let P : SaddleSearch.Params T K := ⟨A, dbg, S, connections.searchRadius, connections.lowerBound⟩
  andThen (SaddleSearch.start P fuel connections.sectors) fun m =>
  andThen (collect P fuel b fuel m [b, a.neg]) fun rays =>
  andThen (pieces P fuel (hull A S rays).reverse) fun path =>
  andThen (some (S.makePath dbg path)) fun path => some (.ok (Path.neg path))

/-- Whether two consecutive segments enclose an angle of less than π on some side, and on which one, path.cc:419-421. -/
def turns (A : Option (Approx T K)) (fuel : ℕ) (S : FlatTri T) (a b : Saddle) : Option (Except Err (Option CCW)) :=
  andThen (S.saddleCcw A fuel a.neg b.source (S.saddleVector b)) fun ccw =>
  if ccw = Vec.ccw A (-S.saddleVector a) (S.saddleVector b) then
    match ccw with
    | .counterclockwise => andThen (S.saddleAngle A fuel a.neg b.source (S.saddleVector b)) fun angle =>
      some (.ok (if angle = 0 then some .counterclockwise else none))
    | .clockwise => andThen (S.saddleAngle A fuel b a.target (S.saddleVector a.neg)) fun angle =>
      some (.ok (if angle = 0 then some .clockwise else none))
    | .collinear => some (.ok none)
  else some (.ok none)

/-- What the segments `a` and `b` are replaced with, if they are replaced, path.cc:413-430. -/
def replacement (A : Option (Approx T K)) (dbg : Bool) (upper : Vec T → Bound) (fuel : ℕ) (S : FlatTri T) (a b : Saddle) :
    Option (Except Err (Option (List Saddle))) :=
  andThen (some (SaddleSearch.equal (⟨A, dbg, S, none, .zero⟩ : SaddleSearch.Params T K) a b.neg)) fun opposite =>
  if opposite then some (.ok (some []))
  else andThen (turns A fuel S a b) fun
    | none => some (.ok none)
    | some .clockwise => andThen (clockwise A dbg upper fuel S a b) fun path => some (.ok (some path))
    | some _ => andThen (clockwise A dbg upper fuel S b.neg a.neg) fun path => some (.ok (some (Path.neg path)))

/-- The loop of `tighten`, path.cc:400-433. The segments before the iterator `a` are `before`, with the last one first; the segments from
`a` on are the last argument. -/
def loop (A : Option (Approx T K)) (dbg : Bool) (upper : Vec T → Bound) (n : ℕ) (S : FlatTri T) :
    ℕ → List Saddle → List Saddle → Option (Except Err (List Saddle))
  | 0, _, _ => none
  | fuel + 1, before, a :: b :: path =>
    andThen (assert dbg (S.connected a b)) fun _ =>
    andThen (replacement A dbg upper n S a b) fun
      | none => loop A dbg upper n S fuel (a :: before) (b :: path)
      | some r =>
        match before with
        | [] => loop A dbg upper n S fuel [] (r ++ path)
        | d :: before => loop A dbg upper n S fuel before (d :: (r ++ path))
  | _ + 1, before, path => some (.ok (before.reverse ++ path))

/-- `tighten`, path.cc:368-436. -/
def tighten (A : Option (Approx T K)) (dbg : Bool) (upper : Vec T → Bound) (fuel : ℕ) (S : FlatTri T) (path : List Saddle) :
    Option (Except Err (List Saddle)) :=
  andThen (loop A dbg upper fuel S fuel [] path) fun path => some (S.makePath dbg path)

end Tighten

end Verif
