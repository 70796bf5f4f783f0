import Verif.Spec.Deque
import Verif.Model.RingExceptions

/-!
# Specification: a bounded deque of elements that may throw

What a client may rely on after an exception.  `Spec.After` is the guarantee the ring buffer
gives: a throwing push has pushed some value; a throwing pop has popped.  The
stronger guarantee of `std::vector` and `std::deque`, that a call that throws has no effect,
is `Strong`.
-/

namespace Edsp.Spec

variable {α : Type}

/-- `After broken d c o`: the call `c` on the deque `d` may have the outcome `o`.  The value
a throwing push leaves behind is that of the element dropped if the deque is full, and not
specified otherwise.  A push of the deque's own element `k` pushes the value that element has
before the call; past the end there is no element and the value is not specified. -/
def After (broken : α → α) (d : Deque α) (o : Except Fault (Deque α)) :
    RingBuffer.Call α → Prop
  | .returns op => o = d.step op
  | .pushOwn k => ∃ w, o = d.pushBack w ∧ ∀ v, d.items[k]? = some v → w = v
  | .pushBackThrows => ∃ w, o = d.pushBack w ∧
      ∀ v, d.items.length = d.cap → d.items.head? = some v → w = broken v
  | .argumentThrows => o = .ok d
  | .emplaceBackThrows => ∃ w, o = d.pushBack w ∧
      ∀ v, d.items.length = d.cap → d.items.head? = some v → w = v
  | .emplaceFrontThrows => ∃ w, o = d.pushFront w ∧
      ∀ v, d.items.length = d.cap → d.items.getLast? = some v → w = v
  | .popFrontThrows => o = d.popFront
  | .popBackThrows => o = d.popBack
  | .resizeThrows _ => o = .ok d

/-- The outcomes a history may have; the first fault stops it. -/
def AfterAll (broken : α → α) : Deque α → List (RingBuffer.Call α) → Except Fault (Deque α) → Prop
  | d, [], o => o = .ok d
  | d, c :: cs, o =>
    (∃ d', After broken d (.ok d') c ∧ AfterAll broken d' cs o) ∨
    (∃ f, After broken d (.error f) c ∧ o = .error f)

/-- The call throws. -/
def Throws : RingBuffer.Call α → Bool
  | .returns _ => false
  | .pushOwn _ => false
  | _ => true

/-- The strong guarantee: after a call that throws, the client observes what it observed
before. -/
def Strong (dflt : α) (moved broken : α → α) (rb : RingBuffer α) (c : RingBuffer.Call α) : Prop :=
  Throws c = true → rb.call dflt moved broken c >>= observe = observe rb

/-- `vector::max_size()` bounds every requested capacity. -/
def SmallCall : RingBuffer.Call α → Prop
  | .returns op => SmallOp op
  | _ => True

end Edsp.Spec
