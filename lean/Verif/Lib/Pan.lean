/-!
# Calls that may panic

Functions on a state that return, or panic and leave a state behind.
-/
namespace Verif

/-- `none` is a panic. -/
structure Pan (S α : Type) where
  run : S → S × Option α

namespace Pan
variable {S α β : Type}

instance : Monad (Pan S) where
  pure a := ⟨fun s => (s, some a)⟩
  bind x f := ⟨fun s =>
    match x.run s with
    | (s, some a) => (f a).run s
    | (s, none) => (s, none)⟩

/-- Panics. -/
def raise : Pan S α := ⟨fun s => (s, none)⟩

def read (f : S → α) : Pan S α := ⟨fun s => (s, some (f s))⟩

def change (f : S → S) : Pan S Unit := ⟨fun s => (f s, some ())⟩

/-- Panics if there is no result. -/
def try_ (f : S → Option (S × α)) : Pan S α := ⟨fun s =>
  match f s with
  | some (s', a) => (s', some a)
  | none => (s, none)⟩

theorem run_pure (a : α) (s : S) : (pure a : Pan S α).run s = (s, some a) := rfl

theorem run_bind (x : Pan S α) (f : α → Pan S β) (s : S) : (x >>= f).run s =
    match x.run s with
    | (s, some a) => (f a).run s
    | (s, none) => (s, none) := rfl

theorem run_raise (s : S) : (raise : Pan S α).run s = (s, none) := rfl

theorem run_change (f : S → S) (s : S) : (change f).run s = (f s, some ()) := rfl

theorem run_read (f : S → α) (s : S) : (read f).run s = (s, some (f s)) := rfl

end Pan
end Verif
