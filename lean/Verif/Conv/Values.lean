import Verif.Conv.Props

/-!
# The contents of the predefined registries

`make_eq` says that the functions of `convention.cpp` produce these registries; `Verif/Conv/Known.lean` states what that means.
-/

namespace SeQuant.Conv

open SeQuant.Spaces (Mask Attr)

def minimalLegacy : Reg :=
  ⟨[⟨[], ⟨0#32, 0#32⟩, 10, true⟩,
    ⟨['i'], ⟨1#32, 0#32⟩, 10, true⟩,
    ⟨['a'], ⟨2#32, 0#32⟩, 10, true⟩,
    ⟨['p'], ⟨3#32, 0#32⟩, 20, true⟩],
    0#32, fun
      | .vac => ⟨1#32, []⟩
      | .ref => ⟨1#32, []⟩
      | .complete => ⟨3#32, []⟩
      | .hole => ⟨1#32, []⟩
      | .particle => ⟨2#32, []⟩
  ⟩

def minimalSpin : Reg :=
  ⟨[⟨[], ⟨0#32, 0#32⟩, 10, true⟩,
    ⟨['i'], ⟨1#32, 3#32⟩, 10, true⟩,
    ⟨['a'], ⟨2#32, 3#32⟩, 10, true⟩,
    ⟨['p'], ⟨3#32, 3#32⟩, 20, true⟩,
    ⟨['i', '↑'], ⟨1#32, 1#32⟩, 10, true⟩,
    ⟨['i', '↓'], ⟨1#32, 2#32⟩, 10, true⟩,
    ⟨['a', '↑'], ⟨2#32, 1#32⟩, 10, true⟩,
    ⟨['a', '↓'], ⟨2#32, 2#32⟩, 10, true⟩,
    ⟨['p', '↑'], ⟨3#32, 1#32⟩, 20, true⟩,
    ⟨['p', '↓'], ⟨3#32, 2#32⟩, 20, true⟩],
    3#32, fun
      | .vac => ⟨1#32, []⟩
      | .ref => ⟨1#32, []⟩
      | .complete => ⟨3#32, []⟩
      | .hole => ⟨1#32, []⟩
      | .particle => ⟨2#32, []⟩
  ⟩

def srLegacy : Reg :=
  ⟨[⟨[], ⟨0#32, 0#32⟩, 10, true⟩,
    ⟨['o'], ⟨1#32, 0#32⟩, 10, true⟩,
    ⟨['i'], ⟨2#32, 0#32⟩, 10, true⟩,
    ⟨['a'], ⟨4#32, 0#32⟩, 10, true⟩,
    ⟨['g'], ⟨8#32, 0#32⟩, 10, true⟩,
    ⟨['m'], ⟨3#32, 0#32⟩, 20, true⟩,
    ⟨['e'], ⟨12#32, 0#32⟩, 20, true⟩,
    ⟨['x'], ⟨6#32, 0#32⟩, 20, true⟩,
    ⟨['p'], ⟨15#32, 0#32⟩, 40, true⟩],
    0#32, fun
      | .vac => ⟨3#32, []⟩
      | .ref => ⟨3#32, []⟩
      | .complete => ⟨15#32, []⟩
      | .hole => ⟨2#32, []⟩
      | .particle => ⟨4#32, []⟩
  ⟩

def srSpin : Reg :=
  ⟨[⟨[], ⟨0#32, 0#32⟩, 10, true⟩,
    ⟨['o'], ⟨1#32, 3#32⟩, 10, true⟩,
    ⟨['i'], ⟨2#32, 3#32⟩, 10, true⟩,
    ⟨['a'], ⟨4#32, 3#32⟩, 10, true⟩,
    ⟨['g'], ⟨8#32, 3#32⟩, 10, true⟩,
    ⟨['m'], ⟨3#32, 3#32⟩, 20, true⟩,
    ⟨['e'], ⟨12#32, 3#32⟩, 20, true⟩,
    ⟨['x'], ⟨6#32, 3#32⟩, 20, true⟩,
    ⟨['p'], ⟨15#32, 3#32⟩, 40, true⟩,
    ⟨['o', '↑'], ⟨1#32, 1#32⟩, 10, true⟩,
    ⟨['o', '↓'], ⟨1#32, 2#32⟩, 10, true⟩,
    ⟨['i', '↑'], ⟨2#32, 1#32⟩, 10, true⟩,
    ⟨['i', '↓'], ⟨2#32, 2#32⟩, 10, true⟩,
    ⟨['a', '↑'], ⟨4#32, 1#32⟩, 10, true⟩,
    ⟨['a', '↓'], ⟨4#32, 2#32⟩, 10, true⟩,
    ⟨['g', '↑'], ⟨8#32, 1#32⟩, 10, true⟩,
    ⟨['g', '↓'], ⟨8#32, 2#32⟩, 10, true⟩,
    ⟨['m', '↑'], ⟨3#32, 1#32⟩, 20, true⟩,
    ⟨['m', '↓'], ⟨3#32, 2#32⟩, 20, true⟩,
    ⟨['e', '↑'], ⟨12#32, 1#32⟩, 20, true⟩,
    ⟨['e', '↓'], ⟨12#32, 2#32⟩, 20, true⟩,
    ⟨['x', '↑'], ⟨6#32, 1#32⟩, 20, true⟩,
    ⟨['x', '↓'], ⟨6#32, 2#32⟩, 20, true⟩,
    ⟨['p', '↑'], ⟨15#32, 1#32⟩, 40, true⟩,
    ⟨['p', '↓'], ⟨15#32, 2#32⟩, 40, true⟩],
    3#32, fun
      | .vac => ⟨3#32, []⟩
      | .ref => ⟨3#32, []⟩
      | .complete => ⟨15#32, []⟩
      | .hole => ⟨2#32, []⟩
      | .particle => ⟨4#32, []⟩
  ⟩

def minimalMrLegacy : Reg :=
  ⟨[⟨[], ⟨0#32, 0#32⟩, 10, true⟩,
    ⟨['i'], ⟨1#32, 0#32⟩, 10, true⟩,
    ⟨['u'], ⟨2#32, 0#32⟩, 10, true⟩,
    ⟨['a'], ⟨4#32, 0#32⟩, 10, true⟩,
    ⟨['I'], ⟨3#32, 0#32⟩, 20, true⟩,
    ⟨['A'], ⟨6#32, 0#32⟩, 20, true⟩,
    ⟨['p'], ⟨7#32, 0#32⟩, 30, true⟩],
    0#32, fun
      | .vac => ⟨1#32, []⟩
      | .ref => ⟨3#32, []⟩
      | .complete => ⟨7#32, []⟩
      | .hole => ⟨3#32, []⟩
      | .particle => ⟨6#32, []⟩
  ⟩

def minimalMrSpin : Reg :=
  ⟨[⟨[], ⟨0#32, 0#32⟩, 10, true⟩,
    ⟨['i'], ⟨1#32, 3#32⟩, 10, true⟩,
    ⟨['u'], ⟨2#32, 3#32⟩, 10, true⟩,
    ⟨['a'], ⟨4#32, 3#32⟩, 10, true⟩,
    ⟨['I'], ⟨3#32, 3#32⟩, 20, true⟩,
    ⟨['A'], ⟨6#32, 3#32⟩, 20, true⟩,
    ⟨['p'], ⟨7#32, 3#32⟩, 30, true⟩,
    ⟨['i', '↑'], ⟨1#32, 1#32⟩, 10, true⟩,
    ⟨['i', '↓'], ⟨1#32, 2#32⟩, 10, true⟩,
    ⟨['u', '↑'], ⟨2#32, 1#32⟩, 10, true⟩,
    ⟨['u', '↓'], ⟨2#32, 2#32⟩, 10, true⟩,
    ⟨['a', '↑'], ⟨4#32, 1#32⟩, 10, true⟩,
    ⟨['a', '↓'], ⟨4#32, 2#32⟩, 10, true⟩,
    ⟨['I', '↑'], ⟨3#32, 1#32⟩, 20, true⟩,
    ⟨['I', '↓'], ⟨3#32, 2#32⟩, 20, true⟩,
    ⟨['A', '↑'], ⟨6#32, 1#32⟩, 20, true⟩,
    ⟨['A', '↓'], ⟨6#32, 2#32⟩, 20, true⟩,
    ⟨['p', '↑'], ⟨7#32, 1#32⟩, 30, true⟩,
    ⟨['p', '↓'], ⟨7#32, 2#32⟩, 30, true⟩],
    3#32, fun
      | .vac => ⟨1#32, []⟩
      | .ref => ⟨3#32, []⟩
      | .complete => ⟨7#32, []⟩
      | .hole => ⟨3#32, []⟩
      | .particle => ⟨6#32, []⟩
  ⟩

def mrLegacy : Reg :=
  ⟨[⟨[], ⟨0#32, 0#32⟩, 10, true⟩,
    ⟨['o'], ⟨1#32, 0#32⟩, 10, true⟩,
    ⟨['i'], ⟨2#32, 0#32⟩, 10, true⟩,
    ⟨['u'], ⟨4#32, 0#32⟩, 10, true⟩,
    ⟨['a'], ⟨8#32, 0#32⟩, 10, true⟩,
    ⟨['g'], ⟨16#32, 0#32⟩, 10, true⟩,
    ⟨['O'], ⟨3#32, 0#32⟩, 20, true⟩,
    ⟨['M'], ⟨7#32, 0#32⟩, 30, true⟩,
    ⟨['I'], ⟨6#32, 0#32⟩, 20, true⟩,
    ⟨['E'], ⟨28#32, 0#32⟩, 30, true⟩,
    ⟨['A'], ⟨12#32, 0#32⟩, 20, true⟩,
    ⟨['p'], ⟨31#32, 0#32⟩, 50, true⟩],
    0#32, fun
      | .vac => ⟨3#32, []⟩
      | .ref => ⟨7#32, []⟩
      | .complete => ⟨31#32, []⟩
      | .hole => ⟨6#32, []⟩
      | .particle => ⟨12#32, []⟩
  ⟩

def mrSpin : Reg :=
  ⟨[⟨[], ⟨0#32, 0#32⟩, 10, true⟩,
    ⟨['o'], ⟨1#32, 3#32⟩, 10, true⟩,
    ⟨['i'], ⟨2#32, 3#32⟩, 10, true⟩,
    ⟨['u'], ⟨4#32, 3#32⟩, 10, true⟩,
    ⟨['a'], ⟨8#32, 3#32⟩, 10, true⟩,
    ⟨['g'], ⟨16#32, 3#32⟩, 10, true⟩,
    ⟨['O'], ⟨3#32, 3#32⟩, 20, true⟩,
    ⟨['M'], ⟨7#32, 3#32⟩, 30, true⟩,
    ⟨['I'], ⟨6#32, 3#32⟩, 20, true⟩,
    ⟨['E'], ⟨28#32, 3#32⟩, 30, true⟩,
    ⟨['A'], ⟨12#32, 3#32⟩, 20, true⟩,
    ⟨['p'], ⟨31#32, 3#32⟩, 50, true⟩,
    ⟨['o', '↑'], ⟨1#32, 1#32⟩, 10, true⟩,
    ⟨['o', '↓'], ⟨1#32, 2#32⟩, 10, true⟩,
    ⟨['i', '↑'], ⟨2#32, 1#32⟩, 10, true⟩,
    ⟨['i', '↓'], ⟨2#32, 2#32⟩, 10, true⟩,
    ⟨['u', '↑'], ⟨4#32, 1#32⟩, 10, true⟩,
    ⟨['u', '↓'], ⟨4#32, 2#32⟩, 10, true⟩,
    ⟨['a', '↑'], ⟨8#32, 1#32⟩, 10, true⟩,
    ⟨['a', '↓'], ⟨8#32, 2#32⟩, 10, true⟩,
    ⟨['g', '↑'], ⟨16#32, 1#32⟩, 10, true⟩,
    ⟨['g', '↓'], ⟨16#32, 2#32⟩, 10, true⟩,
    ⟨['O', '↑'], ⟨3#32, 1#32⟩, 20, true⟩,
    ⟨['O', '↓'], ⟨3#32, 2#32⟩, 20, true⟩,
    ⟨['M', '↑'], ⟨7#32, 1#32⟩, 30, true⟩,
    ⟨['M', '↓'], ⟨7#32, 2#32⟩, 30, true⟩,
    ⟨['I', '↑'], ⟨6#32, 1#32⟩, 20, true⟩,
    ⟨['I', '↓'], ⟨6#32, 2#32⟩, 20, true⟩,
    ⟨['E', '↑'], ⟨28#32, 1#32⟩, 30, true⟩,
    ⟨['E', '↓'], ⟨28#32, 2#32⟩, 30, true⟩,
    ⟨['A', '↑'], ⟨12#32, 1#32⟩, 20, true⟩,
    ⟨['A', '↓'], ⟨12#32, 2#32⟩, 20, true⟩,
    ⟨['p', '↑'], ⟨31#32, 1#32⟩, 50, true⟩,
    ⟨['p', '↓'], ⟨31#32, 2#32⟩, 50, true⟩],
    3#32, fun
      | .vac => ⟨3#32, []⟩
      | .ref => ⟨7#32, []⟩
      | .complete => ⟨31#32, []⟩
      | .hole => ⟨6#32, []⟩
      | .particle => ⟨12#32, []⟩
  ⟩

def f12Legacy : Reg :=
  ⟨[⟨[], ⟨0#32, 0#32⟩, 10, true⟩,
    ⟨['o'], ⟨1#32, 0#32⟩, 10, true⟩,
    ⟨['i'], ⟨2#32, 0#32⟩, 10, true⟩,
    ⟨['a'], ⟨4#32, 0#32⟩, 10, true⟩,
    ⟨['g'], ⟨8#32, 0#32⟩, 10, true⟩,
    ⟨['α', '\''], ⟨16#32, 0#32⟩, 10, true⟩,
    ⟨['m'], ⟨3#32, 0#32⟩, 20, true⟩,
    ⟨['e'], ⟨12#32, 0#32⟩, 20, true⟩,
    ⟨['x'], ⟨6#32, 0#32⟩, 20, true⟩,
    ⟨['p'], ⟨15#32, 0#32⟩, 40, true⟩,
    ⟨['h'], ⟨14#32, 0#32⟩, 30, true⟩,
    ⟨['c'], ⟨24#32, 0#32⟩, 20, true⟩,
    ⟨['α'], ⟨28#32, 0#32⟩, 30, true⟩,
    ⟨['H'], ⟨30#32, 0#32⟩, 40, true⟩,
    ⟨['κ'], ⟨31#32, 0#32⟩, 50, true⟩],
    0#32, fun
      | .vac => ⟨3#32, []⟩
      | .ref => ⟨3#32, []⟩
      | .complete => ⟨31#32, []⟩
      | .hole => ⟨2#32, []⟩
      | .particle => ⟨4#32, []⟩
  ⟩

def f12Spin : Reg :=
  ⟨[⟨[], ⟨0#32, 0#32⟩, 10, true⟩,
    ⟨['o'], ⟨1#32, 3#32⟩, 10, true⟩,
    ⟨['i'], ⟨2#32, 3#32⟩, 10, true⟩,
    ⟨['a'], ⟨4#32, 3#32⟩, 10, true⟩,
    ⟨['g'], ⟨8#32, 3#32⟩, 10, true⟩,
    ⟨['α', '\''], ⟨16#32, 3#32⟩, 10, true⟩,
    ⟨['m'], ⟨3#32, 3#32⟩, 20, true⟩,
    ⟨['e'], ⟨12#32, 3#32⟩, 20, true⟩,
    ⟨['x'], ⟨6#32, 3#32⟩, 20, true⟩,
    ⟨['p'], ⟨15#32, 3#32⟩, 40, true⟩,
    ⟨['h'], ⟨14#32, 3#32⟩, 30, true⟩,
    ⟨['c'], ⟨24#32, 3#32⟩, 20, true⟩,
    ⟨['α'], ⟨28#32, 3#32⟩, 30, true⟩,
    ⟨['H'], ⟨30#32, 3#32⟩, 40, true⟩,
    ⟨['κ'], ⟨31#32, 3#32⟩, 50, true⟩,
    ⟨['o', '↑'], ⟨1#32, 1#32⟩, 10, true⟩,
    ⟨['o', '↓'], ⟨1#32, 2#32⟩, 10, true⟩,
    ⟨['i', '↑'], ⟨2#32, 1#32⟩, 10, true⟩,
    ⟨['i', '↓'], ⟨2#32, 2#32⟩, 10, true⟩,
    ⟨['a', '↑'], ⟨4#32, 1#32⟩, 10, true⟩,
    ⟨['a', '↓'], ⟨4#32, 2#32⟩, 10, true⟩,
    ⟨['g', '↑'], ⟨8#32, 1#32⟩, 10, true⟩,
    ⟨['g', '↓'], ⟨8#32, 2#32⟩, 10, true⟩,
    ⟨['α', '\'', '↑'], ⟨16#32, 1#32⟩, 10, true⟩,
    ⟨['α', '\'', '↓'], ⟨16#32, 2#32⟩, 10, true⟩,
    ⟨['m', '↑'], ⟨3#32, 1#32⟩, 20, true⟩,
    ⟨['m', '↓'], ⟨3#32, 2#32⟩, 20, true⟩,
    ⟨['e', '↑'], ⟨12#32, 1#32⟩, 20, true⟩,
    ⟨['e', '↓'], ⟨12#32, 2#32⟩, 20, true⟩,
    ⟨['x', '↑'], ⟨6#32, 1#32⟩, 20, true⟩,
    ⟨['x', '↓'], ⟨6#32, 2#32⟩, 20, true⟩,
    ⟨['p', '↑'], ⟨15#32, 1#32⟩, 40, true⟩,
    ⟨['p', '↓'], ⟨15#32, 2#32⟩, 40, true⟩,
    ⟨['h', '↑'], ⟨14#32, 1#32⟩, 30, true⟩,
    ⟨['h', '↓'], ⟨14#32, 2#32⟩, 30, true⟩,
    ⟨['c', '↑'], ⟨24#32, 1#32⟩, 20, true⟩,
    ⟨['c', '↓'], ⟨24#32, 2#32⟩, 20, true⟩,
    ⟨['α', '↑'], ⟨28#32, 1#32⟩, 30, true⟩,
    ⟨['α', '↓'], ⟨28#32, 2#32⟩, 30, true⟩,
    ⟨['H', '↑'], ⟨30#32, 1#32⟩, 40, true⟩,
    ⟨['H', '↓'], ⟨30#32, 2#32⟩, 40, true⟩,
    ⟨['κ', '↑'], ⟨31#32, 1#32⟩, 50, true⟩,
    ⟨['κ', '↓'], ⟨31#32, 2#32⟩, 50, true⟩],
    3#32, fun
      | .vac => ⟨3#32, []⟩
      | .ref => ⟨3#32, []⟩
      | .complete => ⟨31#32, []⟩
      | .hole => ⟨2#32, []⟩
      | .particle => ⟨4#32, []⟩
  ⟩

def qcifsLegacy : Reg :=
  ⟨[⟨[], ⟨0#32, 0#32⟩, 10, true⟩,
    ⟨['o'], ⟨1#32, 0#32⟩, 10, true⟩,
    ⟨['n'], ⟨2#32, 0#32⟩, 10, true⟩,
    ⟨['i'], ⟨4#32, 0#32⟩, 10, true⟩,
    ⟨['u'], ⟨8#32, 0#32⟩, 10, true⟩,
    ⟨['a'], ⟨16#32, 0#32⟩, 10, true⟩,
    ⟨['g'], ⟨32#32, 0#32⟩, 10, true⟩,
    ⟨['α', '\''], ⟨64#32, 0#32⟩, 10, true⟩,
    ⟨['m'], ⟨7#32, 0#32⟩, 30, true⟩,
    ⟨['M'], ⟨15#32, 0#32⟩, 40, true⟩,
    ⟨['e'], ⟨48#32, 0#32⟩, 20, true⟩,
    ⟨['E'], ⟨56#32, 0#32⟩, 30, true⟩,
    ⟨['x'], ⟨28#32, 0#32⟩, 30, true⟩,
    ⟨['p'], ⟨63#32, 0#32⟩, 60, true⟩,
    ⟨['κ'], ⟨127#32, 0#32⟩, 70, true⟩],
    0#32, fun
      | .vac => ⟨7#32, []⟩
      | .ref => ⟨7#32, []⟩
      | .complete => ⟨127#32, []⟩
      | .hole => ⟨4#32, []⟩
      | .particle => ⟨16#32, []⟩
  ⟩

def qcifsSpin : Reg :=
  ⟨[⟨[], ⟨0#32, 0#32⟩, 10, true⟩,
    ⟨['o'], ⟨1#32, 3#32⟩, 10, true⟩,
    ⟨['n'], ⟨2#32, 3#32⟩, 10, true⟩,
    ⟨['i'], ⟨4#32, 3#32⟩, 10, true⟩,
    ⟨['u'], ⟨8#32, 3#32⟩, 10, true⟩,
    ⟨['a'], ⟨16#32, 3#32⟩, 10, true⟩,
    ⟨['g'], ⟨32#32, 3#32⟩, 10, true⟩,
    ⟨['α', '\''], ⟨64#32, 3#32⟩, 10, true⟩,
    ⟨['m'], ⟨7#32, 3#32⟩, 30, true⟩,
    ⟨['M'], ⟨15#32, 3#32⟩, 40, true⟩,
    ⟨['e'], ⟨48#32, 3#32⟩, 20, true⟩,
    ⟨['E'], ⟨56#32, 3#32⟩, 30, true⟩,
    ⟨['x'], ⟨28#32, 3#32⟩, 30, true⟩,
    ⟨['p'], ⟨63#32, 3#32⟩, 60, true⟩,
    ⟨['κ'], ⟨127#32, 3#32⟩, 70, true⟩,
    ⟨['o', '↑'], ⟨1#32, 1#32⟩, 10, true⟩,
    ⟨['o', '↓'], ⟨1#32, 2#32⟩, 10, true⟩,
    ⟨['n', '↑'], ⟨2#32, 1#32⟩, 10, true⟩,
    ⟨['n', '↓'], ⟨2#32, 2#32⟩, 10, true⟩,
    ⟨['i', '↑'], ⟨4#32, 1#32⟩, 10, true⟩,
    ⟨['i', '↓'], ⟨4#32, 2#32⟩, 10, true⟩,
    ⟨['u', '↑'], ⟨8#32, 1#32⟩, 10, true⟩,
    ⟨['u', '↓'], ⟨8#32, 2#32⟩, 10, true⟩,
    ⟨['a', '↑'], ⟨16#32, 1#32⟩, 10, true⟩,
    ⟨['a', '↓'], ⟨16#32, 2#32⟩, 10, true⟩,
    ⟨['g', '↑'], ⟨32#32, 1#32⟩, 10, true⟩,
    ⟨['g', '↓'], ⟨32#32, 2#32⟩, 10, true⟩,
    ⟨['α', '\'', '↑'], ⟨64#32, 1#32⟩, 10, true⟩,
    ⟨['α', '\'', '↓'], ⟨64#32, 2#32⟩, 10, true⟩,
    ⟨['m', '↑'], ⟨7#32, 1#32⟩, 30, true⟩,
    ⟨['m', '↓'], ⟨7#32, 2#32⟩, 30, true⟩,
    ⟨['M', '↑'], ⟨15#32, 1#32⟩, 40, true⟩,
    ⟨['M', '↓'], ⟨15#32, 2#32⟩, 40, true⟩,
    ⟨['e', '↑'], ⟨48#32, 1#32⟩, 20, true⟩,
    ⟨['e', '↓'], ⟨48#32, 2#32⟩, 20, true⟩,
    ⟨['E', '↑'], ⟨56#32, 1#32⟩, 30, true⟩,
    ⟨['E', '↓'], ⟨56#32, 2#32⟩, 30, true⟩,
    ⟨['x', '↑'], ⟨28#32, 1#32⟩, 30, true⟩,
    ⟨['x', '↓'], ⟨28#32, 2#32⟩, 30, true⟩,
    ⟨['p', '↑'], ⟨63#32, 1#32⟩, 60, true⟩,
    ⟨['p', '↓'], ⟨63#32, 2#32⟩, 60, true⟩,
    ⟨['κ', '↑'], ⟨127#32, 1#32⟩, 70, true⟩,
    ⟨['κ', '↓'], ⟨127#32, 2#32⟩, 70, true⟩],
    3#32, fun
      | .vac => ⟨7#32, []⟩
      | .ref => ⟨7#32, []⟩
      | .complete => ⟨127#32, []⟩
      | .hole => ⟨4#32, []⟩
      | .particle => ⟨16#32, []⟩
  ⟩

def known : Convention → Bool → Reg
  | .minimal, true => minimalLegacy
  | .minimal, false => minimalSpin
  | .sr, true => srLegacy
  | .sr, false => srSpin
  | .minimalMr, true => minimalMrLegacy
  | .minimalMr, false => minimalMrSpin
  | .mr, true => mrLegacy
  | .mr, false => mrSpin
  | .f12, true => f12Legacy
  | .f12, false => f12Spin
  | .qcifs, true => qcifsLegacy
  | .qcifs, false => qcifsSpin

/-- The call succeeds with a value that satisfies `p`. -/
def Out.all {α : Type} (p : α → Bool) : Out α → Bool
  | .ok a => p a
  | _ => false

theorem Out.all_iff {α : Type} (p : α → Bool) (x : Out α) : x.all p = true ↔ ∃ a, x = .ok a ∧ p a = true := by
  cases x <;> simp [Out.all]

def roles : List Role := [.vac, .ref, .complete, .hole, .particle]

theorem mem_roles (w : Role) : w ∈ roles := by cases w <;> simp [roles]

/-- Equality of registries as a test. -/
def same (r r' : Reg) : Bool := decide (r.spaces = r'.spaces) && decide (r.mask = r'.mask) && roles.all fun w => decide (r.desig w = r'.desig w)

theorem same_iff (r r' : Reg) (h : same r r' = true) : r = r' := by
  simp only [same, Bool.and_eq_true, decide_eq_true_eq, List.all_eq_true] at h
  obtain ⟨⟨h1, h2⟩, h3⟩ := h
  obtain ⟨a, b, c⟩ := r
  obtain ⟨a', b', c'⟩ := r'
  simp only at h1 h2 h3
  subst h1 h2
  congr 1
  funext w
  exact h3 w (mem_roles w)

theorem ok_of_same (x : Out Reg) (r : Reg) (h : x.all (fun y => same y r) = true) : x = .ok r := by
  obtain ⟨y, h1, h2⟩ := (Out.all_iff _ _).1 h
  rw [h1, same_iff _ _ h2]

theorem make_eq (c : Convention) (legacy : Bool) : make c legacy = .ok (known c legacy) := by
  apply ok_of_same
  cases c <;> cases legacy <;> decide +kernel

end SeQuant.Conv
