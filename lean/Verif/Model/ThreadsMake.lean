import Verif.Model.ThreadsWrite
/-!
The calls that make new `V`s, as code of reads, writes and allocations of shared memory (see Model/Threads): NewXxx, Set.At with a path for which
containers are made, and the deep copy of Import.
-/
namespace JV

/-- `&V{…}`: new.go:232-248 and the NewXxx functions on them, see `halloc` -/
def aNew (c : Cell) : Act Ptr := .alloc c fun a => .ret (.ok (some a))

/-- `nil == v || v.valueType == NotExist`, see `Heap.uninit` -/
def aUninit {α : Type} (v : Ptr) (k : Bool → Act α) : Act α :=
  match v with
  | none => k true
  | some a => .read a fun
    | some .notExist => k true
    | _ => k false

/-- `uninit v || uninit c`: the second one is looked at only if the first one exists -/
def aEither {α : Type} (v c : Ptr) (k : Bool → Act α) : Act α := aUninit v fun b => if b then k true else aUninit c k

/-- set.go:167-174 `setToObjectChildren` for a new container, see `hsetKey` -/
def aLinkKey (E : Env) (a : Nat) (k : Bytes) (c : Ptr) : Act Ptr :=
  .read a fun
    | some (.obj n kvs _) => aSetKey E a n kvs k c
    | _ => .ret .panic

/-- unmarshal.go:168-173 `appendToArr` for a new container, see `hpush` -/
def aPush (a : Nat) (c : Ptr) : Act Ptr :=
  .read a fun
    | some (.arr xs) => .write a (.arr (xs ++ [c])) (.ret (.ok c))
    | _ => .ret .panic

mutual
/-- set.go:176-212 `At` with a single parameter, see `hsetAt1` -/
def aSetAt1 (E : Env) (v c : Ptr) : Param → Act Ptr
  | .slice qs =>
    if qs.isEmpty then aEither v c fun b => if b then .ret (.err .valueUninitialized) else aSetLast E v c .nil
    else aSetAt E v c qs
  | p => aEither v c fun b => if b then .ret (.err .valueUninitialized) else aSetLast E v c p
termination_by structural p => p
/-- set.go:176-212 `At`, with `atObject` (243-275) and `atArray` (277-312), see `hsetAt` -/
def aSetAt (E : Env) (v c : Ptr) : List Param → Act Ptr
  | [] => .ret .panic
  | p :: rest =>
    match rest with
    | [] => aSetAt1 E v c p
    | next :: _ =>
      if p.isSlice then .ret (.err .multipleParam)
      else aEither v c fun b => if b then .ret (.err .valueUninitialized) else
      match v with
      | none => .ret .panic
      | some a => .read a fun
        | none => .ret .panic
        | some (.obj _ kvs _) =>
          match anyToString p with
          | .ok k =>
            match hlookup k kvs with
            | some e => aSetAt E e.v c rest
            | none =>
              match hnewContainer next with
              | .ok cell => .alloc cell fun b => (aSetAt E (some b) c rest).onOk fun r => (aLinkKey E a k (some b)).onOk fun _ => .ret (.ok r)
              | .err e => .ret (.err e)
              | _ => .ret .panic
          | .err e => .ret (.err e)
          | _ => .ret .panic
        | some (.arr xs) =>
          match anyToInt p with
          | .ok pos =>
            let i := posForRead xs.length pos
            if i < 0 then
              match hnewContainer next with
              | .ok cell => .alloc cell fun b => (aSetAt E (some b) c rest).onOk fun r => (aPush a (some b)).onOk fun _ => .ret (.ok r)
              | .err e => .ret (.err e)
              | _ => .ret .panic
            else match xs[i.toNat]? with
              | some child => aSetAt E child c rest
              | none => .ret .panic
          | .err e => .ret (.err e)
          | _ => .ret .panic
        | some _ => .ret (.err .other)
termination_by structural ps => ps
end

/-- the loops of `children.deepCopy` (jsonvalue.go:135-163), see `hcopyList` -/
def aCopyList (f : Ptr → Act Ptr) : List Ptr → Act (List Ptr)
  | [] => .ret (.ok [])
  | x :: xs => (f x).onOk fun c => (aCopyList f xs).onOk fun cs => .ret (.ok (c :: cs))

/-- jsonvalue.go:496-526 `deepCopy`, see `hdeepCopy` -/
def aDeepCopy : Nat → Ptr → Act Ptr
  | 0, _ => .ret .diverge
  | fuel + 1, v =>
    match v with
    | none => aNew .notExist
    | some a => .read a fun
      | none => .ret .panic
      | some (.arr xs) => (aCopyList (aDeepCopy fuel) xs).onOk fun ys => aNew (.arr ys)
      | some (.obj n kvs _) => (aCopyList (aDeepCopy fuel) (kvs.map HEnt.v)).onOk fun ys => aNew (.obj n (withValues kvs ys) none)
      | some c => aNew c

end JV
