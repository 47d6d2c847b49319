# Lines of /repo cited by definitions of the model

Generated by tools/coverage.py. A line is cited when the comment of a model definition names it.
Not cited lines are mostly declarations, forwarding overloads and type traits; see DESIGN.md.

Total code lines 5243, cited 4968.

| file | code lines | cited | not cited |
|---|---|---|---|
| scicpp/core/constants.hpp | 35 | 32 | 101-103 |
| scicpp/core/equal.hpp | 44 | 42 | 105-106 |
| scicpp/core/functional.hpp | 190 | 184 | 374-379 |
| scicpp/core/histogram.hpp | 118 | 105 | 133-140, 225-229, 233-235 |
| scicpp/core/interpolate.hpp | 28 | 26 | 20, 81 |
| scicpp/core/io.hpp | 353 | 320 | 75-78, 83-87, 331-348, 354-355, 397-401, 496, 519-520 |
| scicpp/core/macros.hpp | 2 | 1 | 35 |
| scicpp/core/manips.hpp | 84 | 82 | 152-153 |
| scicpp/core/maths.hpp | 94 | 94 |  |
| scicpp/core/meta.hpp | 74 | 28 | 89-91, 96, 105-107, 112, 121-123, 128, 137-139, 144, 179-182, 187, 196-207, 212-219, 226-227, 234-236, 244-246, 256-257, 261-262, 268, 278-283, 288-289 |
| scicpp/core/numeric.hpp | 394 | 387 | 291-296, 591-593 |
| scicpp/core/print.hpp | 177 | 146 | 46-49, 55, 59, 150-155, 178, 183, 209-211, 215-221, 240, 294-295, 299-303 |
| scicpp/core/random.hpp | 34 | 32 | 33-36 |
| scicpp/core/range.hpp | 87 | 81 | 27-28, 162-163, 175-176 |
| scicpp/core/stats.hpp | 323 | 317 | 30-31, 671-672, 676-677 |
| scicpp/core/tuple.hpp | 30 | 20 | 53-60, 64-71 |
| scicpp/core/units/arithmetic.hpp | 139 | 133 | 266-276, 296 |
| scicpp/core/units/chemical.hpp | 26 | 26 |  |
| scicpp/core/units/electromagnetism.hpp | 178 | 178 |  |
| scicpp/core/units/maths.hpp | 189 | 179 | 257-258, 262-263, 269-270, 279-280, 374-375 |
| scicpp/core/units/photometry.hpp | 42 | 42 |  |
| scicpp/core/units/quantity.hpp | 432 | 416 | 56-68, 431-441 |
| scicpp/core/units/thermal.hpp | 19 | 19 |  |
| scicpp/core/units/units.hpp | 531 | 531 |  |
| scicpp/core/utils.hpp | 21 | 9 | 21-22, 26-27, 31-32, 62-67 |
| scicpp/linalg/solve.hpp | 4 | 4 |  |
| scicpp/linalg/utils.hpp | 33 | 30 | 65-67 |
| scicpp/plots/boxplot.hpp | 145 | 128 | 46-51, 134-142, 165, 231-233, 239-240 |
| scicpp/plots/hist.hpp | 85 | 73 | 130-135, 139-141, 145-147 |
| scicpp/plots/plot.hpp | 78 | 67 | 120-126, 131-132, 136-141 |
| scicpp/plots/spectrum.hpp | 68 | 64 | 96, 121-124 |
| scicpp/plots/utils.hpp | 20 | 20 |  |
| scicpp/plots/winvis.hpp | 60 | 51 | 109-115, 119-120 |
| scicpp/polynomials/polynomial.hpp | 333 | 333 |  |
| scicpp/signal/convolve.hpp | 58 | 55 | 23, 126-127 |
| scicpp/signal/fft.hpp | 155 | 155 |  |
| scicpp/signal/spectral.hpp | 235 | 233 | 55-56 |
| scicpp/signal/waveforms.hpp | 32 | 32 |  |
| scicpp/signal/windows.hpp | 293 | 293 |  |
