import Mathlib.Data.Rat.Defs
import Mathlib.Algebra.Order.Ring.Rat
import Mathlib.Tactic.Linarith

/-!
# Points and rectangles (kernel/Point.st, kernel/Rectangle.st)

Coordinates are rational numbers, that is Integers and Fractions; Floats are not modelled.
-/

namespace Verif.Rects

/-- A Point (kernel/Point.st:38). -/
@[ext] structure Pt where
  x : ℚ
  y : ℚ
  deriving DecidableEq

/-- A Rectangle (kernel/Rectangle.st:34), by the coordinates of its points. -/
@[ext] structure Rect where
  origin : Pt
  corner : Pt
  deriving DecidableEq

/-- `+` (kernel/Point.st:128-135). -/
def Pt.add (p q : Pt) : Pt := ⟨p.x + q.x, p.y + q.y⟩

/-- `-` (kernel/Point.st:137-144). -/
def Pt.sub (p q : Pt) : Pt := ⟨p.x - q.x, p.y - q.y⟩

/-- `<` (kernel/Point.st:205-210). -/
def Pt.lt (p q : Pt) : Bool := p.x < q.x ∧ p.y < q.y

/-- `>=` (kernel/Point.st:227-233). -/
def Pt.ge (p q : Pt) : Bool := p.x ≥ q.x ∧ p.y ≥ q.y

/-- `max:` (kernel/Point.st:235-240). -/
def Pt.max (p q : Pt) : Pt := ⟨Max.max p.x q.x, Max.max p.y q.y⟩

/-- `min:` (kernel/Point.st:242-247). -/
def Pt.min (p q : Pt) : Pt := ⟨Min.min p.x q.x, Min.min p.y q.y⟩

/-- `left`, `right`, `top`, `bottom` (kernel/Rectangle.st:81-86, 180-185, 240-245, 261-266). -/
def Rect.left (r : Rect) : ℚ := r.origin.x
@[inherit_doc Rect.left] def Rect.right (r : Rect) : ℚ := r.corner.x
@[inherit_doc Rect.left] def Rect.top (r : Rect) : ℚ := r.origin.y
@[inherit_doc Rect.left] def Rect.bottom (r : Rect) : ℚ := r.corner.y

/-- `extent` (kernel/Rectangle.st:152-157). -/
def Rect.extent (r : Rect) : Pt := r.corner.sub r.origin

/-- `area` (kernel/Rectangle.st:391-398) of what is not `nil`. -/
def Rect.area (r : Rect) : ℚ := (r.right - r.left) * (r.bottom - r.top)

/-- `containsPoint:` (kernel/Rectangle.st:325-332). -/
def containsPoint (r : Rect) (p : Pt) : Bool := p.ge r.origin && p.lt r.corner

/-- `contains:` (kernel/Rectangle.st:334-341). -/
def contains (r a : Rect) : Bool := containsPoint r a.origin && containsPoint r a.corner

/-- `normalized` (kernel/Rectangle.st:559-566). -/
def normalized (r : Rect) : Rect :=
  if r.right > r.left ∧ r.bottom > r.top then r else ⟨r.origin.min r.corner, r.origin.max r.corner⟩

/-- `normalize` (kernel/Rectangle.st:542-557), by its effect on the coordinates. -/
def normalize (r : Rect) : Rect :=
  let r := if r.right > r.left then (⟨⟨r.corner.x, r.origin.y⟩, ⟨r.left, r.corner.y⟩⟩ : Rect) else r
  if r.bottom > r.top then ⟨⟨r.origin.x, r.corner.y⟩, ⟨r.corner.x, r.top⟩⟩ else r

/-- `intersects:` (kernel/Rectangle.st:343-358). -/
def intersects (r a : Rect) : Bool :=
  let s := normalized r
  let n := normalized a
  let right := min s.right n.right
  let left := max s.left n.left
  if right ≤ left then false
  else
    let bottom := min s.bottom n.bottom
    let top := max s.top n.top
    bottom > top

/-- `intersect:` (kernel/Rectangle.st:495-511); `none` is `nil`. -/
def intersect (r a : Rect) : Option Rect :=
  let s := normalized r
  let n := normalized a
  let right := min s.right n.right
  let left := max s.left n.left
  if right ≤ left then none
  else
    let bottom := min s.bottom n.bottom
    let top := max s.top n.top
    if bottom ≤ top then none else some ⟨⟨left, top⟩, ⟨right, bottom⟩⟩

/-- `Set>>add:`, as far as one sees: what is in already is not added. -/
def addTo (l : List Rect) (r : Rect) : List Rect := if r ∈ l then l else l ++ [r]

/-- `areasOutside:` (kernel/Rectangle.st:400-429); `none` if a message is sent to `nil` that it does not understand: `area`. -/
def areasOutside (s a : Rect) : Option (List Rect) :=
  match intersect s a with
  | none => none
  | some xsect =>
    if xsect.area = 0 then some [s]
    else
      let l := min s.left s.right
      let r := max s.left s.right
      let t := min s.top s.bottom
      let b := max s.top s.bottom
      let ans := []
      let ans := if l = xsect.left then ans else addTo ans ⟨⟨l, t⟩, ⟨xsect.left, b⟩⟩
      let ans := if t = xsect.top then ans else addTo ans ⟨⟨xsect.left, t⟩, ⟨xsect.corner.x, xsect.origin.y⟩⟩
      let ans := if b = xsect.bottom then ans else addTo ans ⟨⟨xsect.origin.x, xsect.corner.y⟩, ⟨xsect.right, b⟩⟩
      let ans := if r = xsect.right then ans else addTo ans ⟨⟨xsect.right, t⟩, ⟨r, b⟩⟩
      some ans

/-- `merge:` (kernel/Rectangle.st:486-493). -/
def merge (r a : Rect) : Rect := ⟨r.origin.min a.origin, r.corner.max a.corner⟩

/-- `translateBy:` (kernel/Rectangle.st:617-623) by a Point. -/
def translateBy (r : Rect) (d : Pt) : Rect := ⟨r.origin.add d, r.corner.add d⟩

/-- `amountToTranslateWithin:` (kernel/Rectangle.st:375-382). -/
def amountToTranslateWithin (r a : Rect) : Pt := if contains a r then ⟨0, 0⟩ else a.origin.sub r.origin

/-- `translatedToBeWithin:` (kernel/Rectangle.st:384-389). -/
def translatedToBeWithin (r a : Rect) : Rect := translateBy r (amountToTranslateWithin r a)

/-- What can be given to `expandBy:` and `insetBy:`. -/
inductive Delta where
  | point (p : Pt)
  | rect (r : Rect)
  | num (n : ℚ)

/-- `expandBy:` (kernel/Rectangle.st:431-452). -/
def expandBy (r : Rect) : Delta → Rect
  | .point d => ⟨r.origin.sub d, r.corner.add d⟩
  | .rect d => ⟨r.origin.sub d.origin, r.corner.add d.corner⟩
  | .num d => ⟨⟨r.origin.x - d, r.origin.y - d⟩, ⟨r.corner.x + d, r.corner.y + d⟩⟩

/-- `insetBy:` (kernel/Rectangle.st:455-475). -/
def insetBy (r : Rect) : Delta → Rect
  | .point d => ⟨r.origin.add d, r.corner.sub d⟩
  | .rect d => ⟨r.origin.add d.origin, r.corner.sub d.corner⟩
  | .num d => ⟨⟨r.origin.x + d, r.origin.y + d⟩, ⟨r.corner.x - d, r.corner.y - d⟩⟩

/-! ### Rectangles as objects

A Rectangle has two instance variables with Points, which are objects that can change. -/

/-- Points by their addresses, the next free address, and `n` rectangles: the addresses of origin and corner. -/
structure World (n : ℕ) where
  heap : ℕ → Pt
  next : ℕ
  rect : Fin n → ℕ × ℕ

/-- What a rectangle looks like. -/
def World.view {n : ℕ} (w : World n) (i : Fin n) : Rect := ⟨w.heap (w.rect i).1, w.heap (w.rect i).2⟩

/-- A new Point. -/
def World.new {n : ℕ} (w : World n) (p : Pt) : World n × ℕ := (⟨Function.update w.heap w.next p, w.next + 1, w.rect⟩, w.next)

/-- Change a Point in place, as `x:` and `y:` do (kernel/Point.st:94-106). -/
def World.put {n : ℕ} (w : World n) (k : ℕ) (f : Pt → Pt) : World n := { w with heap := Function.update w.heap k (f (w.heap k)) }

/-- Store in the instance variables `origin` and `corner`. -/
def World.setOrigin {n : ℕ} (w : World n) (i : Fin n) (k : ℕ) : World n := { w with rect := Function.update w.rect i (k, (w.rect i).2) }
@[inherit_doc World.setOrigin]
def World.setCorner {n : ℕ} (w : World n) (i : Fin n) (k : ℕ) : World n := { w with rect := Function.update w.rect i ((w.rect i).1, k) }

/-- Messages that change a rectangle.  Points that are copied are given by their coordinates; the one that is not, by its address. -/
inductive Op where
  | origin (p : Pt)
  | originCorner (p q : Pt)
  | originExtent (p q : Pt)
  | corner (k : ℕ)
  | bottomRight (p : Pt)
  | bottomLeft (p : Pt)
  | topRight (p : Pt)
  | left (v : ℚ)
  | right (v : ℚ)
  | top (v : ℚ)
  | bottom (v : ℚ)
  | width (v : ℚ)
  | height (v : ℚ)
  | extent (p : Pt)
  | all (l t r b : ℚ)
  | moveBy (p : Pt)
  | moveTo (p : Pt)

/-- Set `origin` and then `corner` to new points. -/
def World.fresh {n : ℕ} (w : World n) (i : Fin n) (p q : Pt) : World n :=
  let a := w.new p
  let w := a.1.setOrigin i a.2
  let b := w.new q
  b.1.setCorner i b.2

/-- The messages (kernel/Rectangle.st:88-93, 109-115, 124-129, 145-150 `corner:`, 159-164, 173-178, 187-200, 216-238, 247-252, 268-273,
289-294 `topLeft:` like `origin:`, 303-309, 318-323, 590-607). -/
def World.step {n : ℕ} (w : World n) (i : Fin n) : Op → World n
  | .origin p => let a := w.new p; a.1.setOrigin i a.2
  | .originCorner p q => w.fresh i p q
  | .originExtent p q => w.fresh i p (p.add q)
  | .corner k => w.setCorner i k
  | .bottomRight p => let a := w.new p; a.1.setCorner i a.2
  | .bottomLeft p =>
    let w := w.put (w.rect i).1 fun o => { o with x := p.x }
    w.put (w.rect i).2 fun c => { c with y := p.y }
  | .topRight p =>
    let w := w.put (w.rect i).2 fun c => { c with x := p.x }
    w.put (w.rect i).1 fun o => { o with y := p.y }
  | .left v => w.put (w.rect i).1 fun o => { o with x := v }
  | .right v => w.put (w.rect i).2 fun c => { c with x := v }
  | .top v => w.put (w.rect i).1 fun o => { o with y := v }
  | .bottom v => w.put (w.rect i).2 fun c => { c with y := v }
  | .width v => w.put (w.rect i).2 fun c => { c with x := (w.heap (w.rect i).1).x + v }
  | .height v => w.put (w.rect i).2 fun c => { c with y := (w.heap (w.rect i).1).y + v }
  | .extent p => let a := w.new ((w.heap (w.rect i).1).add p); a.1.setCorner i a.2
  | .all l t r b => w.fresh i ⟨l, t⟩ ⟨r, b⟩
  | .moveBy p => w.fresh i ((w.heap (w.rect i).1).add p) ((w.heap (w.rect i).2).add p)
  | .moveTo p => w.fresh i p ((w.heap (w.rect i).2).add (p.sub (w.heap (w.rect i).1)))

end Verif.Rects
