import Verif.Spec.Tokens
/-! # Specification: positions that have wrapped around -/

namespace PM2.Spec

/-- A span whose ends are reduced to 32 bits. -/
def wrapSpan (s : Span) : Span := ⟨s.lo % 2 ^ 32, s.hi % 2 ^ 32⟩

end PM2.Spec
